import Verif.Scheme.Fresh

/-!
# Histories of the checker of a function body: lemmas
-/

namespace Verif.Scheme
open Verif.Types Verif.Solver

theorem replace_bel {P : UVar → Prop} {σ : TLog} {ρ : RLog} {m : List (UVar × Nat)}
    {loc : List (UVar × (Nat × Nat))} {N : Nat} (hT : ∀ v t, (v, t) ∈ σ → Bel P N t)
    (hR : ∀ v r, (v, r) ∈ ρ → BelRow P N r) (n : Nat) (t t' : Ty) (ht : Bel P N t)
    (h : replace σ ρ m loc n t = some t') : Bel P N t' := by
  have leaf : ∀ hd, Bel P N (.node hd [] [] none) := by
    intro hd; rw [bel_node]; exact ⟨by simp, by simp [BelEs], by simp⟩
  induction n generalizing t t' with
  | zero => simp [replace] at h
  | succ n ih =>
    cases t with
    | uni v =>
      rw [replace] at h
      split at h
      · simp only [Option.some.injEq] at h; rw [← h]; exact leaf _
      · split at h
        · simp only [Option.some.injEq] at h; rw [← h]; exact leaf _
        · split at h
          · rename_i hl
            exact ih _ _ (hT _ _ (lookup_mem hl)) h
          · simp only [Option.some.injEq] at h; rw [← h]; exact ht
    | node hd ks es r =>
      rw [bel_node] at ht
      rw [replace] at h
      have hrow := rowApply_bel hR _ ht.2
      cases hk : mapO (replace σ ρ m loc n) ks with
      | none => simp [hk] at h
      | some ks' =>
        cases he : mapArgs (replace σ ρ m loc n) (rowApply ρ ⟨es, r⟩).effects with
        | none => simp [hk, he] at h
        | some es' =>
          simp [hk, he] at h
          subst h
          rw [bel_node]
          exact ⟨mapO_bel ih hk ht.1, mapArgs_bel ih he hrow.1, hrow.2⟩

theorem BelSt.generalize {P : UVar → Prop} {st : St} (h : BelSt P st) {n : Nat} {t g : Ty}
    {ex vs : List UVar} (ht : Bel P st.next t)
    (hg : generalizeExcluding st.σ st.ρ n t ex = some (g, vs)) : Bel P st.next g := by
  rw [generalizeExcluding] at hg
  split at hg
  · simp at hg
  · simp only at hg
    split at hg
    · simp at hg
    · rename_i hx
      simp only [Option.some.injEq, Prod.mk.injEq] at hg
      rw [← hg.1]
      exact replace_bel (fun v t hm => (h.tys v t hm).2) (fun v r hm => (h.rows v r hm).2) _ _ _ ht hx

/-- The scheme a `let` binding gets has only variables of the constraints and the value. -/
theorem letBind_bel {P : UVar → Prop} {n : Nat} {t : Ty} {e : Row} {c c' : Ctx} {N : Nat}
    (hc : ∀ k ∈ c.cons, ∀ v, inCon v k → P v) (ht : Bel P N t)
    (hN : ∀ bs st, solve n c.cons St.init = some (bs, st) → st.next ≤ N)
    (h : c.letBind n t e = some c') :
    ∃ s, c' = { c with schemes := s :: c.schemes } ∧ Bel P N s.body := by
  rw [Ctx.letBind] at h
  cases hs : solve n c.cons St.init with
  | none => simp [hs] at h
  | some p =>
    obtain ⟨bs, st⟩ := p
    obtain ⟨b1, _, _⟩ := solve_bel (P := P) ⟨by simp [St.init], by simp [St.init]⟩
      (fun k hk v hv => hc k hk v (inCon_iff.mpr hv)) hs
    have b := b1.bump (hN _ _ hs)
    simp only [hs] at h
    split at h
    · simp only [Option.some.injEq] at h; exact ⟨_, h.symm, ht⟩
    split at h
    · simp at h
    · rename_i ty hty
      have bt : Bel P N ty := b.apply (st := { st with next := N }) ht hty
      split at h
      · split at h
        · split at h
          · simp at h
          · rename_i hg
            simp only [Option.some.injEq] at h
            exact ⟨_, h.symm, b.generalize (st := { st with next := N }) bt hg⟩
        · simp at h
      · simp only [Option.some.injEq] at h
        exact ⟨_, h.symm, bt⟩

theorem bel_bound (P : UVar → Prop) (N : Nat) (t : Ty) (h : ∀ v ∈ tyVars t, P v) :
    ∃ M, N ≤ M ∧ Bel P M t :=
  ⟨reserve N (Ty.rowVars t), (reserve_le N _).1, fun v hv => h v ((mem_tyVars t).mpr hv),
    (reserve_le N _).2⟩

theorem inst_ctx {s : PolyTy} {c : Ctx} {i : Inst} {c' : Ctx} (h : c.instantiate s = some (i, c')) :
    c'.cons = c.cons ∧ c'.schemes = c.schemes ∧ c'.nextTy = c.nextTy + s.params ∧
    c.nextRow ≤ c'.nextRow ∧ i.tys = (List.range' c.nextTy s.params).map .src ∧
    (∀ v ∈ i.rows, c.nextRow ≤ v ∧ v < c'.nextRow) ∧ i.rows.Nodup := by
  rw [Ctx.instantiate, ctx_freshTys_eq] at h
  simp only at h
  split at h
  · simp at h
  · rename_i t ht
    simp only [Option.some.injEq, Prod.mk.injEq] at h
    obtain ⟨rfl, rfl⟩ := h
    obtain ⟨f1, f2⟩ := freshen_start s.rows t c.nextRow
    refine ⟨rfl, rfl, rfl, f1.le, rfl, ?_, List.nodup_reverse.mpr f1.nodup⟩
    intro v hv
    simp only [List.mem_reverse, List.mem_map] at hv
    obtain ⟨p, hp, rfl⟩ := hv
    exact f1.range p hp

/-- Type variables drawn by the function's own counter. -/
def Drawn (N : Nat) : UVar → Prop
  | .solver _ => False
  | .src k => k < N

theorem Drawn.mono {N M : Nat} (h : N ≤ M) {v : UVar} (hv : Drawn N v) : Drawn M v := by
  cases v with
  | solver k => exact hv
  | src k => exact Nat.lt_of_lt_of_le hv h

structure TInv (c : Ctx) (dt : List UVar) : Prop where
  drawn : ∀ v ∈ dt, Drawn c.nextTy v
  cons : ∀ k ∈ c.cons, ∀ v, inCon v k → Drawn c.nextTy v
  schemes : ∀ s ∈ c.schemes, ∀ v ∈ tyVars s.body, Drawn c.nextTy v

theorem ctxHist_types {ok : Nat → Ctx → Prop} {c : Ctx} {dt : List UVar} {dr : List Nat}
    (h : CtxHist ok c dt dr) : TInv c dt := by
  induction h with
  | new => exact ⟨by simp, by simp [Ctx.new], by simp [Ctx.new]⟩
  | @freshTy c dt dr _ ih =>
    have up : ∀ v, Drawn c.nextTy v → Drawn (c.nextTy + 1) v := fun v => Drawn.mono (Nat.le_succ _)
    refine ⟨fun v hv => ?_, fun k hk v hv => up v (ih.cons k hk v hv),
      fun s hs v hv => up v (ih.schemes s hs v hv)⟩
    rcases List.mem_cons.mp hv with hv | hv
    · subst hv; exact Nat.lt_succ_self _
    · exact up v (ih.drawn v hv)
  | @freshRow c dt dr _ ih => exact ⟨ih.drawn, ih.cons, ih.schemes⟩
  | @constrain c dt dr k _ hk ih =>
    refine ⟨ih.drawn, fun k' hk' v hv => ?_, ih.schemes⟩
    rcases List.mem_append.mp hk' with h' | h'
    · exact ih.cons k' h' v hv
    · rw [List.mem_singleton.mp h'] at hv
      rcases hk.1 v hv with hv | ⟨s, hs, hv⟩
      · exact ih.drawn v hv
      · exact ih.schemes s hs v hv
  | @bind c dt dr t _ hk ih =>
    refine ⟨ih.drawn, ih.cons, fun s hs v hv => ?_⟩
    rcases List.mem_cons.mp hs with hs | hs
    · subst hs
      rcases hk.1 v hv with hv | ⟨s, hs, hv⟩
      · exact ih.drawn v hv
      · exact ih.schemes s hs v hv
    · exact ih.schemes s hs v hv
  | @leave c dt dr k _ ih =>
    exact ⟨ih.drawn, ih.cons, fun s hs v hv => ih.schemes s (List.mem_of_mem_drop hs) v hv⟩
  | @inst c dt dr s i c' _ _ hi ih =>
    obtain ⟨e1, e2, e3, _, e5, _, _⟩ := inst_ctx hi
    have up : ∀ v, Drawn c.nextTy v → Drawn c'.nextTy v := fun v => Drawn.mono (by omega)
    refine ⟨fun v hv => ?_, fun k hk v hv => up v (ih.cons k (e1 ▸ hk) v hv),
      fun s hs v hv => up v (ih.schemes s (e2 ▸ hs) v hv)⟩
    rcases List.mem_append.mp hv with hv | hv
    · rw [e5] at hv
      obtain ⟨j, hj, rfl⟩ := List.mem_map.mp hv
      simp only [List.mem_range'_1] at hj
      show j < c'.nextTy
      omega
    · exact up v (ih.drawn v hv)
  | @letBind c dt dr n t e c' _ _ hk hl ih =>
    have ht : ∀ v ∈ tyVars t, Drawn c.nextTy v := by
      intro v hv
      rcases hk.1 v hv with hv | ⟨s, hs, hv⟩
      · exact ih.drawn v hv
      · exact ih.schemes s hs v hv
    obtain ⟨M, hM, hb⟩ : ∃ M, (∀ bs st, solve n c.cons St.init = some (bs, st) → st.next ≤ M) ∧
        Bel (Drawn c.nextTy) M t := by
      cases hs : solve n c.cons St.init with
      | none => obtain ⟨M, _, hb⟩ := bel_bound _ 0 t ht; exact ⟨M, by simp, hb⟩
      | some p =>
        obtain ⟨M, hM, hb⟩ := bel_bound _ p.2.next t ht
        refine ⟨M, ?_, hb⟩
        rintro bs st ⟨⟩
        exact hM
    obtain ⟨s, rfl, hs⟩ := letBind_bel ih.cons hb hM hl
    refine ⟨ih.drawn, ih.cons, fun s' hs' v hv => ?_⟩
    rcases List.mem_cons.mp hs' with h' | h'
    · subst h'; exact hs.1 v ((mem_tyVars _).mp hv)
    · exact ih.schemes s' h' v hv

structure RInv (c : Ctx) (dr : List Nat) : Prop where
  drawn : ∀ v ∈ dr, v < c.nextRow
  cons : ∀ k ∈ c.cons, ∀ v ∈ Con.rowVars k, v < c.nextRow
  schemes : ∀ s ∈ c.schemes, ∀ v ∈ Ty.rowVars s.body, v < c.nextRow

theorem ctxHist_rows {c : Ctx} {dt : List UVar} {dr : List Nat} (h : CtxHist Tame c dt dr) :
    RInv c dr := by
  have known : ∀ {c : Ctx} {dt dr vs rs}, RInv c dr → Known c dt dr vs rs → ∀ v, rs v → v < c.nextRow := by
    intro c dt dr vs rs ih hk v hv
    rcases hk.2 v hv with hv | ⟨s, hs, hv, _⟩
    · exact ih.drawn v hv
    · exact ih.schemes s hs v hv
  induction h with
  | new => exact ⟨by simp, by simp [Ctx.new], by simp [Ctx.new]⟩
  | @freshTy c dt dr _ ih => exact ⟨ih.drawn, ih.cons, ih.schemes⟩
  | @freshRow c dt dr _ ih =>
    refine ⟨fun v hv => ?_, fun k hk v hv => Nat.lt_succ_of_lt (ih.cons k hk v hv),
      fun s hs v hv => Nat.lt_succ_of_lt (ih.schemes s hs v hv)⟩
    rcases List.mem_cons.mp hv with hv | hv
    · subst hv; exact Nat.lt_succ_self _
    · exact Nat.lt_succ_of_lt (ih.drawn v hv)
  | @constrain c dt dr k _ hk ih =>
    refine ⟨ih.drawn, fun k' hk' v hv => ?_, ih.schemes⟩
    rcases List.mem_append.mp hk' with h' | h'
    · exact ih.cons k' h' v hv
    · rw [List.mem_singleton.mp h'] at hv
      exact known ih hk v hv
  | @bind c dt dr t _ hk ih =>
    refine ⟨ih.drawn, ih.cons, fun s hs v hv => ?_⟩
    rcases List.mem_cons.mp hs with hs | hs
    · subst hs; exact known ih hk v hv
    · exact ih.schemes s hs v hv
  | @leave c dt dr k _ ih =>
    exact ⟨ih.drawn, ih.cons, fun s hs v hv => ih.schemes s (List.mem_of_mem_drop hs) v hv⟩
  | @inst c dt dr s i c' _ _ hi ih =>
    obtain ⟨e1, e2, _, e4, _, e6, _⟩ := inst_ctx hi
    refine ⟨fun v hv => ?_, fun k hk v hv => Nat.lt_of_lt_of_le (ih.cons k (e1 ▸ hk) v hv) e4,
      fun s hs v hv => Nat.lt_of_lt_of_le (ih.schemes s (e2 ▸ hs) v hv) e4⟩
    rcases List.mem_append.mp hv with hv | hv
    · exact (e6 v hv).2
    · exact Nat.lt_of_lt_of_le (ih.drawn v hv) e4
  | @letBind c dt dr n t e c' _ hok hk hl ih =>
    have hb : Bel (fun _ => True) c.nextRow t := ⟨fun _ _ => trivial, known ih hk⟩
    obtain ⟨s, rfl, hs⟩ := letBind_bel (fun _ _ _ _ => trivial) hb hok hl
    refine ⟨ih.drawn, ih.cons, fun s' hs' v hv => ?_⟩
    rcases List.mem_cons.mp hs' with h' | h'
    · subst h'; exact hs.2 v hv
    · exact ih.schemes s' h' v hv

end Verif.Scheme
