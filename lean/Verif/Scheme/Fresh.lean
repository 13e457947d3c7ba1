import Verif.Scheme.Proofs

/-!
# Histories of fresh variables: lemmas
-/

namespace Verif.Scheme
open Verif.Types Verif.Solver

theorem freshTys_eq (k : Nat) (st : St) :
    freshTys k st = ((List.range' st.next k).map .solver, { st with next := st.next + k }) := by
  induction k generalizing st with
  | zero => rfl
  | succ k ih =>
    simp only [freshTys, freshTy, ih, List.range'_succ, List.map_cons]
    congr 2
    omega

theorem ctx_freshTys_eq (k : Nat) (c : Ctx) :
    Ctx.freshTys k c = ((List.range' c.nextTy k).map .src, { c with nextTy := c.nextTy + k }) := by
  induction k generalizing c with
  | zero => rfl
  | succ k ih =>
    simp only [Ctx.freshTys, Ctx.freshTy, ih, List.range'_succ, List.map_cons]
    congr 2
    omega

/-- What one row-variable freshening does, started with an empty map. -/
theorem freshen_start (q : List Nat) (t : Ty) (k : Nat) :
    let r := freshen q t ⟨k, []⟩
    FSok k r.2 ∧ Renamed q r.2.map t r.1 := by
  have h0 : FSok k ⟨k, []⟩ := ⟨Nat.le_refl _, by simp, by simp⟩
  obtain ⟨h1, _, h3⟩ := freshen_spec (q := q) t k ⟨k, []⟩ h0
  exact ⟨h1, h3 _ (FSext.refl _)⟩

/-- Solver variables below the counter. -/
def Made (N : Nat) : UVar → Prop
  | .solver k => k < N
  | .src _ => True

theorem Made.mono {N M : Nat} (h : N ≤ M) {v : UVar} (hv : Made N v) : Made M v := by
  cases v with
  | solver k => exact Nat.lt_of_lt_of_le hv h
  | src k => trivial

theorem Bel.imp {P Q : UVar → Prop} (hpq : ∀ v, P v → Q v) {N : Nat} {t : Ty} (h : Bel P N t) :
    Bel Q N t := ⟨fun v hv => hpq v (h.1 v hv), h.2⟩

theorem BelSt.imp {P Q : UVar → Prop} (hpq : ∀ v, P v → Q v) {st : St} (h : BelSt P st) :
    BelSt Q st :=
  ⟨fun v t hm => ⟨hpq v (h.tys v t hm).1, (h.tys v t hm).2.imp hpq⟩,
   fun v r hm => ⟨(h.rows v r hm).1, fun e he a ha => ((h.rows v r hm).2.1 e he a ha).imp hpq,
     (h.rows v r hm).2.2⟩⟩

/-- Everything mentioned so far is below the counter. -/
structure HInv (l : List Ev) (st : St) : Prop where
  tys : ∀ e ∈ l, ∀ k, e.hasTy (.solver k) → k < st.next
  rows : ∀ e ∈ l, ∀ v, e.hasRow v → v < st.next
  bel : BelSt (Made st.next) st
  new : l.Pairwise NewAfter

theorem HInv.gave {l : List Ev} {st : St} (h : HInv l st) {k : Nat}
    (hm : Ev.gaveTy (.solver k) ∈ l) : k < st.next := h.tys _ hm k rfl

/-- Appending events whose new variables lie between the counters. -/
theorem HInv.append {l es : List Ev} {st st' : St} (h : HInv l st) (hle : st.next ≤ st'.next)
    (hb : BelSt (Made st'.next) st')
    (h1 : ∀ e ∈ es, ∀ k, e.hasTy (.solver k) → k < st'.next)
    (h2 : ∀ e ∈ es, ∀ v, e.hasRow v → v < st'.next)
    (h3 : ∀ e ∈ es, ∀ v, e = .gaveTy v → ∃ k, v = .solver k ∧ st.next ≤ k)
    (h4 : ∀ e ∈ es, ∀ v, e = .gaveRow v → st.next ≤ v)
    (h5 : es.Pairwise NewAfter) : HInv (l ++ es) st' := by
  refine ⟨?_, ?_, hb, List.pairwise_append.mpr ⟨h.new, h5, ?_⟩⟩
  · intro e he k hk
    rcases List.mem_append.mp he with he | he
    · exact Nat.lt_of_lt_of_le (h.tys e he k hk) hle
    · exact h1 e he k hk
  · intro e he v hv
    rcases List.mem_append.mp he with he | he
    · exact Nat.lt_of_lt_of_le (h.rows e he v hv) hle
    · exact h2 e he v hv
  · intro e he e' he'
    constructor
    · intro v hv hx
      obtain ⟨k, rfl, hk⟩ := h3 e' he' v hv
      have := h.tys e he k hx
      omega
    · intro v hv hx
      have := h4 e' he' v hv
      have := h.rows e he v hx
      omega

theorem pairwise_gaveTy {l : List UVar} (h : l.Nodup) : (l.map Ev.gaveTy).Pairwise NewAfter := by
  induction l with
  | nil => simp
  | cons a l ih =>
    rw [List.map_cons, List.pairwise_cons]
    refine ⟨?_, ih (List.nodup_cons.mp h).2⟩
    intro e he
    obtain ⟨b, hb, rfl⟩ := List.mem_map.mp he
    refine ⟨?_, by simp⟩
    rintro v ⟨⟩ hx
    simp only [Ev.hasTy] at hx
    subst hx
    exact (List.nodup_cons.mp h).1 hb

theorem pairwise_gaveRow {l : List Nat} (h : l.Nodup) : (l.map Ev.gaveRow).Pairwise NewAfter := by
  induction l with
  | nil => simp
  | cons a l ih =>
    rw [List.map_cons, List.pairwise_cons]
    refine ⟨?_, ih (List.nodup_cons.mp h).2⟩
    intro e he
    obtain ⟨b, hb, rfl⟩ := List.mem_map.mp he
    refine ⟨by simp, ?_⟩
    rintro v ⟨⟩ hx
    simp only [Ev.hasRow] at hx
    subst hx
    exact (List.nodup_cons.mp h).1 hb

theorem hist_inv {l : List Ev} {st : St} (h : Hist l st) : HInv l st := by
  induction h with
  | init => exact ⟨by simp, by simp, ⟨by simp [St.init], by simp [St.init]⟩, .nil⟩
  | @freshTy l st _ ih =>
    refine ih.append (Nat.le_succ _) ((ih.bel.bump (Nat.le_succ _)).imp (fun v => Made.mono (Nat.le_succ _)))
      ?_ ?_ ?_ ?_ (List.pairwise_singleton _ _)
    · rintro e he k hk
      rw [List.mem_singleton.mp he] at hk
      cases hk
      exact Nat.lt_succ_self _
    · rintro e he v hv
      rw [List.mem_singleton.mp he] at hv
      exact hv.elim
    · rintro e he v hv
      rw [List.mem_singleton.mp he] at hv
      cases hv
      exact ⟨_, rfl, Nat.le_refl _⟩
    · rintro e he v hv
      rw [List.mem_singleton.mp he] at hv
      cases hv
  | @freshRow l st _ ih =>
    refine ih.append (Nat.le_succ _) ((ih.bel.bump (Nat.le_succ _)).imp (fun v => Made.mono (Nat.le_succ _)))
      ?_ ?_ ?_ ?_ (List.pairwise_singleton _ _)
    · rintro e he k hk
      rw [List.mem_singleton.mp he] at hk
      exact hk.elim
    · rintro e he v hv
      rw [List.mem_singleton.mp he] at hv
      cases hv
      exact Nat.lt_succ_self _
    · rintro e he v hv
      rw [List.mem_singleton.mp he] at hv
      cases hv
    · rintro e he v hv
      rw [List.mem_singleton.mp he] at hv
      cases hv
      exact Nat.le_refl _
  | @solve l st n cs bs st' _ hsrc hs ih =>
    have hP : ∀ c ∈ cs, ∀ v, conOccurs v c → Made st.next v := by
      intro c hc v hv
      cases v with
      | src _ => trivial
      | solver k => exact ih.gave (hsrc c hc k (inCon_iff.mpr hv))
    obtain ⟨b1, b2, b3⟩ := solve_bel ih.bel hP hs
    refine ih.append b2 (b1.imp (fun v => Made.mono b2)) ?_ ?_ ?_ ?_ (List.pairwise_singleton _ _)
    · rintro e he k hk
      rw [List.mem_singleton.mp he] at hk
      obtain ⟨c, hc, hk⟩ := hk
      exact Nat.lt_of_lt_of_le (hP c hc _ (inCon_iff.mp hk)) b2
    · rintro e he v hv
      rw [List.mem_singleton.mp he] at hv
      obtain ⟨c, hc, hv⟩ := hv
      exact b3 c hc v hv
    · rintro e he v hv
      rw [List.mem_singleton.mp he] at hv
      cases hv
    · rintro e he v hv
      rw [List.mem_singleton.mp he] at hv
      cases hv
  | @inst l st s i st' _ hsrc hi ih =>
    rw [instantiate, freshTys_eq] at hi
    simp only at hi
    split at hi
    · simp at hi
    · rename_i t ht
      simp only [Option.some.injEq, Prod.mk.injEq] at hi
      obtain ⟨rfl, rfl⟩ := hi
      obtain ⟨f1, f2⟩ := freshen_start s.rows t (reserve st.next (Ty.rowVars s.body) + s.params)
      have hr := reserve_le st.next (Ty.rowVars s.body)
      generalize reserve st.next (Ty.rowVars s.body) = N at *
      generalize hfr : freshen s.rows t ⟨N + s.params, []⟩ = fr at *
      have hle : N + s.params ≤ fr.2.next := f1.le
      have hst : st.next ≤ fr.2.next := by omega
      refine ih.append hst ((ih.bel.bump hst).imp (fun v => Made.mono hst)) ?_ ?_ ?_ ?_ ?_
      · rintro e he k hk
        simp only [List.mem_cons, List.mem_append, List.mem_map] at he
        rcases he with rfl | ⟨_, ⟨j, hj, rfl⟩, rfl⟩ | ⟨_, _, rfl⟩
        · exact Nat.lt_of_lt_of_le (ih.gave (hsrc k hk)) hst
        · cases hk
          simp only [List.mem_range'_1] at hj
          show k < fr.2.next
          omega
        · exact hk.elim
      · rintro e he v hv
        simp only [List.mem_cons, List.mem_append, List.mem_map] at he
        rcases he with rfl | ⟨_, ⟨j, hj, rfl⟩, rfl⟩ | ⟨w, hw, rfl⟩
        · exact Nat.lt_of_lt_of_le (hr.2 v hv) (by show N ≤ fr.2.next; omega)
        · exact hv.elim
        · cases hv
          simp only [List.mem_reverse, List.mem_map] at hw
          obtain ⟨p, hp, rfl⟩ := hw
          exact (f1.range p hp).2
      · rintro e he v hv
        simp only [List.mem_cons, List.mem_append, List.mem_map] at he
        rcases he with rfl | ⟨_, ⟨j, hj, rfl⟩, rfl⟩ | ⟨w, hw, rfl⟩
        · cases hv
        · cases hv
          simp only [List.mem_range'_1] at hj
          exact ⟨j, rfl, by omega⟩
        · cases hv
      · rintro e he v hv
        simp only [List.mem_cons, List.mem_append, List.mem_map] at he
        rcases he with rfl | ⟨_, ⟨j, hj, rfl⟩, rfl⟩ | ⟨w, hw, rfl⟩
        · cases hv
        · cases hv
        · cases hv
          simp only [List.mem_reverse, List.mem_map] at hw
          obtain ⟨p, hp, rfl⟩ := hw
          have := (f1.range p hp).1
          omega
      · rw [List.pairwise_cons]
        refine ⟨?_, List.pairwise_append.mpr ⟨pairwise_gaveTy ?_, pairwise_gaveRow ?_, ?_⟩⟩
        · intro e he
          constructor
          · rintro v rfl hx
            simp only [List.mem_append, List.mem_map] at he
            rcases he with ⟨_, ⟨j, hj, rfl⟩, he⟩ | ⟨_, _, he⟩
            · cases he
              simp only [List.mem_range'_1] at hj
              have := ih.gave (hsrc j hx)
              omega
            · cases he
          · rintro v rfl hx
            simp only [List.mem_append, List.mem_map] at he
            rcases he with ⟨_, _, he⟩ | ⟨w, hw, he⟩
            · cases he
            · cases he
              simp only [List.mem_reverse, List.mem_map] at hw
              obtain ⟨p, hp, rfl⟩ := hw
              have h1 := (f1.range p hp).1
              have h2 := hr.2 _ hx
              omega
        · exact (List.nodup_range' (step := 1)).map (fun a b hab => by cases hab; rfl)
        · exact List.nodup_reverse.mpr f1.nodup
        · intro e he e' he'
          obtain ⟨_, _, rfl⟩ := List.mem_map.mp he
          obtain ⟨_, _, rfl⟩ := List.mem_map.mp he'
          exact ⟨by simp, fun v _ hx => hx.elim⟩

end Verif.Scheme
