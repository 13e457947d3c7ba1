import Verif.EffectTrack.Proofs

/-! # Accepted programs -/

namespace Verif.EffectTrack
open Verif.Types

/-- What is known of the `i`-th function when it was checked in the environment `env`, with the
registered row `row`. -/
structure Was (P : Prog) (i : Nat) (env : Env) (f : Fn) (row : Row) (ρ : Solver.RLog) : Prop where
  bnd : Boundaries (bodyCtx P env i f).cs
  main : mainOk P ρ i (bodyCtx P env i f).cur = true
  ann : annOk f (startCtx env i f).1 (bodyCtx P env i f).cur ρ = true
  row : row = Solver.rowApply ρ (inferredRow P env i f)

theorem checks_was {P : Prog} {n : Nat} {env : Env} (h : Checks P Solver.Con.Simple n env) :
    env.length = P.fns.length ∧ (∀ i, n ≤ i → env[i]? = (collected P)[i]?) ∧
    ∀ i, i < n → ∃ env' f ρ row, Checks P Solver.Con.Simple i env' ∧ P.fns[i]? = some f ∧
      Was P i env' f row ρ ∧ env[i]? = some row ∧ ∀ j, j < i → env[j]? = env'[j]? := by
  induction h with
  | start => exact ⟨by simp [collected], fun i _ => rfl, fun i hi => absurd hi (Nat.not_lt_zero _)⟩
  | @fn i env f cs n bs st hc hf hcs hq hs hb hio hm ha ih =>
    obtain ⟨hl, hcol, ih⟩ := ih
    have hil : i < env.length := by
      rw [hl]; exact (List.getElem?_eq_some_iff.mp hf).1
    refine ⟨by simp [hl], fun j hj => ?_, fun j hj => ?_⟩
    · rw [List.getElem?_set_ne (by omega)]
      exact hcol j (by omega)
    · rcases Nat.lt_or_ge j i with hji | hji
      · obtain ⟨env', f', ρ', row', h1, h2, h3, h4, h5⟩ := ih j hji
        refine ⟨env', f', ρ', row', h1, h2, h3, ?_, fun k hk => ?_⟩
        · rw [List.getElem?_set_ne (by omega)]; exact h4
        · rw [List.getElem?_set_ne (by omega)]; exact h5 k hk
      · obtain rfl : j = i := by omega
        refine ⟨env, f, st.ρ, _, hc, hf, ⟨(boundaries_of_solve hq hs hb).mono hcs, hm, ha, rfl⟩,
          by simp [hil], fun k hk => ?_⟩
        rw [List.getElem?_set_ne (by omega)]

theorem schemeRow_of {env : Env} {i : Nat} {r : Row} (h : env[i]? = some r) : schemeRow env i = r := by
  simp [schemeRow, h]

theorem rowApply_closed (ρ : Solver.RLog) {r : Row} (h : r.rest = none) : Solver.rowApply ρ r = r := by
  simp [Solver.rowApply, Solver.rowLoop, h]

theorem rowApply_abs (ρ : Solver.RLog) {r : Row} {a : Ab} (h : abs r a) :
    abs (Solver.rowApply ρ r) a := by
  obtain ⟨e, he, rfl⟩ := List.mem_map.mp h
  exact List.mem_map_of_mem (Solver.rowLoop_effects ρ _ _ r e he)

/-- The row of a function with a closed annotation never changes. -/
theorem closed_row {P : Prog} {n : Nat} {env : Env} (h : Checks P Solver.Con.Simple n env) {f : Nat}
    {g : Fn} {es : List Eff} (hg : P.fns[f]? = some g) (ha : g.ann = some ⟨es, none⟩) :
    env[f]? = some ⟨es, none⟩ := by
  have hcol : (collected P)[f]? = some ⟨es, none⟩ := by simp [collected, hg, ha]
  induction h with
  | start => exact hcol
  | @fn i env g' cs n bs st hc hf hcs hq hs hb hio hm hann ih =>
    by_cases hi : i = f
    · subst hi
      have hgg : g' = g := Option.some.inj (hf.symm.trans hg)
      subst hgg
      have hil : i < env.length := by
        rw [(checks_was hc).1]; exact (List.getElem?_eq_some_iff.mp hf).1
      have hrow : inferredRow P env i g' = ⟨es, none⟩ := by
        simp [inferredRow, ha, startCtx, Ctx.inst, schemeRow_of ih]
      simp [hil, hrow, rowApply_closed]
    · rw [List.getElem?_set_ne hi]; exact ih

variable {P : Prog} {env : Env}

/-- The abilities of the registered row of a function. -/
def rowOf (env : Env) (f : Nat) (a : Ab) : Prop := abs (schemeRow env f) a

theorem fn_cover (h : Accepted P Solver.Con.Simple env) (ho : Orderly P) {i : Nat} {fn : Fn}
    (hf : P.fns[i]? = some fn) : ∃ env' ρ row, Was P i env' fn row ρ ∧ env[i]? = some row ∧
      (∀ a, abs (bodyCtx P env' i fn).cur a → rowOf env i a) ∧
      ∀ F : Ab → Prop, (∀ a, abs (bodyCtx P env' i fn).cur a → F a) →
        (fn.ann = none → ∀ a, rowOf env i a → F a) → Cover P (rowOf env) F fn.body := by
  obtain ⟨hl, -, hw⟩ := checks_was h
  obtain ⟨env', f', ρ, row, hc, hf', hwas, hrow, hsame⟩ :=
    hw i (List.getElem?_eq_some_iff.mp hf).1
  have : f' = fn := Option.some.inj (hf'.symm.trans hf)
  subst this
  obtain ⟨ho1, ho2, strict, ho3, ho4⟩ := ho i f' hf
  have hdecl : ∀ r, f'.ann = some r → (startCtx env' i f').1 = r ∧ schemeRow env' i = r := by
    intro r hr
    obtain ⟨es, t⟩ := r
    obtain rfl : t = none := (ho1 _ hr).1
    have := schemeRow_of (closed_row hc hf hr)
    exact ⟨by simp [startCtx, Ctx.inst, this], this⟩
  refine ⟨env', ρ, row, hwas, hrow, ?_, ?_⟩
  · intro a ha
    rw [rowOf, schemeRow_of hrow, hwas.row]
    cases hann : f'.ann with
    | none =>
      refine rowApply_abs ρ ?_
      simp only [inferredRow, hann, Option.isNone_none, if_true]
      split
      · exact ha
      · split
        · exact ha
        · exact ha
    | some r =>
      have hd := (hdecl r hann).1
      have hcl := (ho1 r hann).1
      have hA := hwas.ann
      simp only [annOk, hann, hd, rowApply_closed ρ hcl, hcl, Option.isNone_some, Option.isSome_none,
        Bool.false_or, List.all_eq_true] at hA
      simp only [inferredRow, hann, hd, Option.isNone_some, Bool.false_eq_true, if_false, rowApply_closed ρ hcl]
      obtain ⟨e, he, rfl⟩ := List.mem_map.mp ha
      have := hA e (Solver.rowLoop_effects ρ _ _ _ e he)
      simpa using this
  · intro F hF hself
    refine check_cover (io := P.io) (env := env') (strict := strict) f'.body
      (startCtx env' i f').2 ho4 ?_ ?_ hwas.bnd hF
    · refine Calls.imp (fun f hfk => ?_) _ ho2
      obtain ⟨g, hg, hcase⟩ := hfk
      rcases hcase with ⟨g', es, hg', hga⟩ | hle
      · refine .inl fun a ha => ?_
        rw [rowOf, schemeRow_of (closed_row h hg' hga)] at ha
        rw [schemeRow_of (closed_row hc hg' hga)]
        exact ha
      · rcases Nat.lt_or_ge f i with hlt | hge
        · refine .inl fun a ha => ?_
          have := hsame f hlt
          simp only [rowOf, schemeRow, this] at ha
          exact ha
        · obtain rfl : f = i := by omega
          cases hann : f'.ann with
          | none => exact .inr (hself hann)
          | some r =>
            refine .inl fun a ha => ?_
            obtain ⟨es, t⟩ := r
            obtain rfl : t = none := (ho1 _ hann).1
            rw [rowOf, schemeRow_of (closed_row h hf hann)] at ha
            rw [(hdecl _ hann).2]
            exact ha
    · intro s
      obtain ⟨⟨e, es, hann⟩, hcalls⟩ := ho3 s
      refine ⟨?_, Calls.imp (fun f hcl => ?_) _ hcalls⟩
      · have hcur : (startCtx env' i f').2.cur = ⟨e :: es, none⟩ := by
          have := (hdecl _ hann).1
          simp only [startCtx] at this ⊢
          simp [hann, this]
        rw [hcur]
        exact ⟨rfl, e.ability, by simp [abs]⟩
      · obtain ⟨g, es', hg, hga⟩ := hcl
        rw [schemeRow_of (closed_row hc hg hga)]

theorem row_covers (h : Accepted P Solver.Con.Simple env) (ho : Orderly P) (f : Nat) (fn : Fn)
    (hf : P.fns[f]? = some fn) : Cover P (rowOf env) (rowOf env f) fn.body := by
  obtain ⟨env', ρ, row, -, -, h1, h2⟩ := fn_cover h ho hf
  exact h2 _ h1 (fun _ a ha => ha)

theorem escapes_row (h : Accepted P Solver.Con.Simple env) (ho : Orderly P) {f : Nat} {fn : Fn}
    (hf : P.fns[f]? = some fn) {a : Ab} (he : Escapes P a fn.body) : rowOf env f a :=
  escapes_cover (row_covers h ho) he _ (row_covers h ho f fn hf)

theorem escapes_main (h : Accepted P Solver.Con.Simple env) (ho : Orderly P) {fn : Fn}
    (hf : P.fns[P.main]? = some fn) {a : Ab} (he : Escapes P a fn.body) : a = P.io := by
  obtain ⟨env', ρ, row, hw, hrow, h1, h2⟩ := fn_cover h ho hf
  have hc : abs (bodyCtx P env' P.main fn).cur a := by
    refine escapes_cover (row_covers h ho) he _ (h2 _ (fun _ h => h) ?_)
    intro hann b hb
    rw [rowOf, schemeRow_of hrow, hw.row] at hb
    simp only [inferredRow, hann, Option.isNone_none, if_true, rowApply_closed] at hb
    exact hb
  have hm := hw.main
  simp only [mainOk, ne_eq, not_true_eq_false, decide_false, Bool.false_or, List.all_eq_true] at hm
  obtain ⟨e, hme, rfl⟩ := List.mem_map.mp (rowApply_abs ρ hc)
  simpa using hm e hme

end Verif.EffectTrack
