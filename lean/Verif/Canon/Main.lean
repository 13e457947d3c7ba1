import Verif.Canon.Proofs

/-!
# The simulation
-/
namespace Verif.Canon

open Verif.Arith (I128 BinOp)

variable {O S : Type}

/-! ## Ends of bodies -/

/-- Operations that end a body are last. -/
def TermLast : List Op → Prop
  | [] => True
  | o :: os => (os ≠ [] → o.isTerm = false) ∧ TermLast os

theorem termLast_of_none : ∀ {os : List Op}, (∀ o ∈ os, o.isTerm = false) → TermLast os
  | [], _ => trivial
  | o :: os, h => ⟨fun _ => h o (by simp), termLast_of_none fun p hp => h p (by simp [hp])⟩

theorem termLast_append : ∀ {a b : List Op}, (∀ o ∈ a, o.isTerm = false) → TermLast b → TermLast (a ++ b)
  | [], _, _, h => h
  | o :: a, _, ha, h => ⟨fun _ => ha o (by simp), termLast_append (fun p hp => ha p (by simp [hp])) h⟩

theorem termLast_init : ∀ {a : List Op} {o : Op}, TermLast (a ++ [o]) → ∀ p ∈ a, p.isTerm = false
  | [], _, _, _, hp => by simp at hp
  | q :: a, o, h, p, hp => by
    rcases List.mem_cons.1 hp with rfl | hp
    · exact h.1 (by simp)
    · exact termLast_init h.2 p hp

mutual
theorem term_op (ty : Value → Ty) : (o : Op) → ∀ (K : Ctx) (D : Value → Prop) (st : St), WfOp ty K D o →
    o.isTerm = false → ∀ p ∈ (canonOp ty st o).1, p.isTerm = false
  | .const r v, K, D, st, _, _, p, hp => by
    simp only [canonOp, List.mem_singleton] at hp; subst hp; rfl
  | .constBool r v, K, D, st, _, _, p, hp => by
    simp only [canonOp, List.mem_singleton] at hp; subst hp; rfl
  | .bin o r a b, K, D, st, _, _, p, hp => by
    rw [canonOp] at hp
    split at hp <;> simp at hp <;> subst hp <;> rfl
  | .cast r a, K, D, st, _, _, p, hp => by
    rw [canonOp] at hp
    split at hp <;> simp at hp <;> subst hp <;> rfl
  | .plain f args rs, K, D, st, _, _, p, hp => by
    simp only [canonOp, List.mem_singleton] at hp; subst hp; rfl
  | .ite c rs t e, K, D, st, hw, _, p, hp => by
    simp only [WfOp] at hw
    have ht := term_ops ty t _ _ st hw.2.1
    have he := term_ops ty e _ _ st hw.2.2
    rw [canonOp] at hp
    rcases hct : canonOps ty st t with ⟨t', st1, n1⟩
    rcases hce : canonOps ty st e with ⟨e', st2, n2⟩
    rw [hct] at ht
    rw [hce] at he
    simp only [hct, hce] at hp ht he
    have stay : p ∈ [Op.ite (st.sub c) rs t' e'] → p.isTerm = false := by
      intro h
      rw [List.mem_singleton] at h
      subst h
      rfl
    split at hp
    · exact stay hp
    · split at hp
      · rename_i hs
        split at hp
        · rw [splitYield_eq hs] at ht
          exact termLast_init ht p hp
        · exact stay hp
      · exact stay hp
    · split at hp
      · rename_i hs
        split at hp
        · rw [splitYield_eq hs] at he
          exact termLast_init he p hp
        · exact stay hp
      · exact stay hp
  | .loop inits args rs body, K, D, st, _, _, p, hp => by
    simp only [canonOp, List.mem_singleton] at hp; subst hp; rfl
  | .yield vs, _, _, _, _, h, _, _ => by cases h
  | .cont vs, _, _, _, _, h, _, _ => by cases h
  | .brk vs, _, _, _, _, h, _, _ => by cases h
  | .exit f vs, _, _, _, _, h, _, _ => by cases h

theorem term_ops (ty : Value → Ty) : (os : List Op) → ∀ (K : Ctx) (D : Value → Prop) (st : St),
    WfOps ty K D os → TermLast (canonOps ty st os).1
  | [], _, _, _, _ => trivial
  | o :: os, K, D, st, hw => by
    simp only [WfOps] at hw
    have h2 := term_ops ty os _ _ (canonOp ty st o).2.1 hw.2.2
    simp only [canonOps]
    cases ht : o.isTerm with
    | false => exact termLast_append (term_op ty o K D st hw.1 ht) h2
    | true =>
      have hos : os = [] := by
        cases os with
        | nil => rfl
        | cons p ps => have := hw.2.1 (by simp); rw [ht] at this; cases this
      subst hos
      cases o <;> simp only [Op.isTerm, Bool.false_eq_true] at ht <;>
        simp [canonOp, canonOps, TermLast]
end

/-- If the operations end in a `yield` afterwards, they did before. -/
theorem split_source (ty : Value → Ty) : ∀ {os : List Op} {K : Ctx} {D : Value → Prop} {st : St}
    {body : List Op} {vs : List Value}, WfOps ty K D os → (canonOps ty st os).1 = body ++ [.yield vs] →
    ∃ os0 vs0, os = os0 ++ [.yield vs0] ∧ (canonOps ty st os0).1 = body ∧
      (canonOps ty st os0).2.1 = (canonOps ty st os).2.1 ∧ vs = vs0.map (canonOps ty st os).2.1.sub ∧
      (∀ o ∈ os0, o.isTerm = false)
  | [], _, _, _, body, vs, _, h => by simp [canonOps] at h
  | o :: os, K, D, st, body, vs, hw, h => by
    simp only [WfOps] at hw
    by_cases hos : os = []
    · subst hos
      cases ht : o.isTerm with
      | false =>
        exfalso
        have := term_op ty o K D st hw.1 ht (.yield vs) (by simp [canonOps] at h; simp [h])
        cases this
      | true =>
        cases o <;> simp only [Op.isTerm, Bool.false_eq_true] at ht
        · rename_i ws
          refine ⟨[], ws, rfl, ?_⟩
          simp only [canonOps, canonOp, List.append_nil] at h ⊢
          have h' : ([] : List Op) ++ [.yield (ws.map st.sub)] = body ++ [.yield vs] := h
          have h1 := List.append_inj' h' rfl
          simp only [List.cons.injEq, Op.yield.injEq, and_true] at h1
          exact ⟨h1.1, trivial, h1.2.symm, by simp⟩
        all_goals
          exfalso
          simp only [canonOps, canonOp, List.append_nil] at h
          rename_i ws
          have h1 := List.append_inj' (s₁ := []) (t₁ := [_]) h rfl
          simp at h1
    · have ho := hw.2.1 hos
      simp only [canonOps] at h
      have h1 := term_op ty o K D st hw.1 ho
      rcases hc : canonOp ty st o with ⟨out1, st1, n1⟩
      rw [hc] at h h1
      simp only at h h1
      rcases List.eq_nil_or_concat (canonOps ty st1 os).1 with h2 | ⟨b2, y, h2⟩
      · exfalso
        rw [h2, List.append_nil] at h
        have := h1 (.yield vs) (by simp [h])
        cases this
      · rw [List.concat_eq_append] at h2
        rw [h2, ← List.append_assoc] at h
        have h3 := List.append_inj' h rfl
        simp only [List.cons.injEq, and_true] at h3
        rw [h3.2] at h2
        obtain ⟨os0, vs0, e1, e2, e3, e4, e5⟩ := split_source ty hw.2.2 h2
        refine ⟨o :: os0, vs0, by rw [e1]; rfl, ?_, ?_, ?_, ?_⟩
        · simp only [canonOps, hc, e2]; exact h3.1
        · simp only [canonOps, hc, e3]
        · simp only [canonOps, hc]; exact e4
        · intro p hp
          rcases List.mem_cons.1 hp with rfl | hp
          · exact ho
          · exact e5 p hp

theorem no_yield_op {M : Machine O S} {ty : Value → Ty} {n : Nat} {ρ : Env O} {s : S} {o : Op}
    (ho : o.isTerm = false) (vs : List (Val O)) (s1 : S) : execOp M ty n ρ s o ≠ some (.yield vs s1) := by
  intro h
  cases o with
  | const r v => simp only [execOp] at h; split at h <;> cases h
  | constBool r v => simp only [execOp] at h; split at h <;> cases h
  | bin o r a b => simp only [execOp] at h; split at h <;> cases h
  | cast r a => simp only [execOp] at h; split at h <;> cases h
  | plain f args rs => simp only [execOp] at h; split at h <;> cases h
  | ite c rs t e =>
    simp only [execOp] at h
    revert h
    generalize (if truth (ρ c) then execOps M ty n ρ s t else execOps M ty n ρ s e) = q
    intro h
    cases q with
    | none => cases h
    | some q => cases q <;> cases h
  | loop inits args rs body =>
    simp only [execOp] at h
    revert h
    generalize iterate _ n _ s = q
    intro h
    cases q with
    | none => cases h
    | some q => cases q <;> cases h
  | yield vs => cases ho
  | cont vs => cases ho
  | brk vs => cases ho
  | exit f vs => cases ho

theorem no_yield {M : Machine O S} {ty : Value → Ty} {n : Nat} : ∀ {os : List Op} {ρ : Env O} {s : S},
    (∀ o ∈ os, o.isTerm = false) → ∀ (vs : List (Val O)) (s1 : S),
    execOps M ty n ρ s os ≠ some (.yield vs s1)
  | [], _, _, _, _, _ => by simp [execOps]
  | o :: os, ρ, s, h, vs, s1 => by
    intro he
    simp only [execOps] at he
    have ho := no_yield_op (M := M) (ty := ty) (n := n) (ρ := ρ) (s := s) (h o (by simp)) vs s1
    cases hq : execOp M ty n ρ s o with
    | none => rw [hq] at he; cases he
    | some q =>
      rw [hq] at he ho
      cases q with
      | next ρ' s' => exact no_yield (fun p hp => h p (by simp [hp])) vs s1 he
      | _ => exact ho he

/-! ## Scopes -/

/-- What is defined after operations. -/
def scopeAfter (D : Value → Prop) : List Op → (Value → Prop)
  | [] => D
  | o :: os => scopeAfter (fun x => D x ∨ x ∈ o.results) os

theorem scopeAfter_of (os : List Op) : ∀ {D : Value → Prop} {x : Value}, D x → scopeAfter D os x := by
  induction os with
  | nil => exact fun h => h
  | cons o os ih => exact fun h => ih (.inl h)

theorem wfOps_append {ty : Value → Ty} {K : Ctx} : ∀ {a b : List Op} {D : Value → Prop},
    WfOps ty K D (a ++ b) → WfOps ty K D a ∧ WfOps ty K (scopeAfter D a) b
  | [], _, _, h => ⟨trivial, h⟩
  | o :: a, b, D, h => by
    simp only [List.cons_append, WfOps] at h
    obtain ⟨h1, h2, h3⟩ := h
    obtain ⟨h4, h5⟩ := wfOps_append h3
    refine ⟨?_, h5⟩
    simp only [WfOps]
    exact ⟨h1, fun hne => h2 (by simp [hne]), h4⟩

theorem binders_append : ∀ (a b : List Op), bindersOps (a ++ b) = bindersOps a ++ bindersOps b
  | [], _ => rfl
  | o :: a, b => by simp [bindersOps, binders_append a b]

/-! ## Loops -/

theorem iterate_rel {M : Machine O S} {ty : Value → Ty} {K : Ctx} {D1 A1 : Value → Prop} {st1 : St}
    {ts : List Ty} (hK : K.cont = some ts) {f f' : List (Val O) → S → Option (Out O S)}
    (hf : ∀ vs s, HasTys ts vs → OutRel M ty K D1 A1 st1 (f vs s) (f' vs s)) :
    ∀ (k : Nat) (vs : List (Val O)) (s : S), HasTys ts vs →
      OutRel M ty K D1 A1 st1 (iterate f k vs s) (iterate f' k vs s)
  | 0, _, _, _ => .none
  | k + 1, vs, s, hv => by
    have h := hf vs s hv
    simp only [iterate]
    revert h
    generalize f vs s = q
    generalize f' vs s = q'
    intro h
    cases h with
    | none => exact .none
    | next hi => exact .next hi
    | yield hk hv => exact .yield hk hv
    | cont hk hv' =>
      rw [hK, Option.some.injEq] at hk
      subst hk
      exact iterate_rel hK hf k _ _ hv'
    | brk hk hv => exact .brk hk hv
    | exit => exact .exit
    | trap => exact .trap
    | stuck => exact .stuck

theorem afterLoop_rel {M : Machine O S} {ty : Value → Ty} {K K' : Ctx} {D A : Value → Prop} {st : St}
    {rs : List Value} {D1 A1 : Value → Prop} {st1 : St} {ρ ρ' : Env O} {q q' : Option (Out O S)}
    (hK : K'.brk = some (rs.map ty)) (hq : OutRel M ty K' D1 A1 st1 q q') (hi : Inv M ty D A st ρ ρ')
    (hA : ∀ r ∈ rs, ¬ A r) :
    OutRel M ty K (fun x => D x ∨ x ∈ rs) (fun x => A x ∨ x ∈ rs) (st.keepAll rs) (afterLoop ρ rs q)
      (afterLoop ρ' rs q') := by
  cases hq with
  | none => exact .none
  | next _ => exact .stuck
  | yield hk hv => exact .stuck
  | cont hk hv => exact .stuck
  | brk hk hv =>
    rw [hK, Option.some.injEq] at hk
    subst hk
    exact .next (hi.keepAll hA hv)
  | exit => exact .exit
  | trap => exact .trap
  | stuck => exact .stuck

theorem OutRel.grow {M : Machine O S} {ty : Value → Ty} {K : Ctx} {D A : Value → Prop} {st : St}
    {q q' : Option (Out O S)} (h : OutRel M ty K D A st q q') {K' : Ctx} {D' A' : Value → Prop} {st' : St}
    (hc : K.cont = K'.cont) (hb : K.brk = K'.brk) (hy : K.yield = K'.yield)
    (hi : ∀ ρ ρ', Inv M ty D A st ρ ρ' → Inv M ty D' A' st' ρ ρ') : OutRel M ty K' D' A' st' q q' := by
  cases h with
  | none => exact .none
  | next h => exact .next (hi _ _ h)
  | yield hk hv => exact .yield (hy ▸ hk) hv
  | cont hk hv => exact .cont (hc ▸ hk) hv
  | brk hk hv => exact .brk (hb ▸ hk) hv
  | exit => exact .exit
  | trap => exact .trap
  | stuck => exact .stuck

/-! ## A conditional that is decided -/

theorem splice_sim {M : Machine O S} {ty : Value → Ty} {n : Nat} {K : Ctx} {D A : Value → Prop} {st : St}
    {c : Value} {rs : List Value} {t e : List Op} (b : Bool) (hc : D c)
    (hd : decided ty st.defs (st.sub c) = some b)
    (hw : WfOps ty ⟨some (rs.map ty), K.cont, K.brk⟩ D (if b then t else e))
    {body : List Op} {vs : List Value}
    (hs : splitYield (canonOps ty st (if b then t else e)).1 = some (body, vs))
    (hbD : ∀ x ∈ bindersOps (if b then t else e), ¬ D x)
    (ih : ∀ os0, os0 <+: (if b then t else e) → WfOps ty ⟨some (rs.map ty), K.cont, K.brk⟩ D os0 →
      Sim M ty n ⟨some (rs.map ty), K.cont, K.brk⟩ D A (bindersOps os0) (scopeAfter D os0) st
        (fun ρ s => execOps M ty n ρ s os0) (canonOps ty st os0))
    {binders : List Value} (hsub : ∀ x ∈ bindersOps (if b then t else e), x ∈ binders) (k : Nat) :
    Sim M ty n K D A binders (fun x => D x ∨ x ∈ rs) st (fun ρ s => execOp M ty n ρ s (.ite c rs t e))
      (body, (canonOps ty st (if b then t else e)).2.1.forwardAll rs vs, k) := by
  revert hw hs hbD ih hsub
  generalize hbr : (if b then t else e) = br
  intro hw hs hbD ih hsub
  obtain ⟨os0, vs0, e1, e2, e3, e4, e5⟩ := split_source ty hw (splitYield_eq hs)
  subst e1
  obtain ⟨w0, w1⟩ := wfOps_append hw
  simp only [WfOps, WfOp, Option.some.injEq] at w1
  obtain ⟨⟨w1, w2⟩, -⟩ := w1
  obtain ⟨A1, hA1, hA2, hsim⟩ := ih os0 (List.prefix_append _ _) w0
  rw [binders_append] at hbD hsub
  refine ⟨A1, hA1, fun x hx => (hA2 x hx).imp_right fun h => hsub x (by simp [h]), fun ρ ρ' s hi => ?_⟩
  have hq := hsim ρ ρ' s hi
  have htr : truth (ρ c) = b := by
    rw [hi.same c hc]
    exact decided_sound hi (hi.avail c hc) hd
  have hsrc : execOp M ty n ρ s (.ite c rs t e) =
      afterIf ρ rs (andThen (execOps M ty n ρ s os0) fun ρ1 s1 => some (.yield (vs0.map ρ1) s1)) := by
    simp only [execOp, htr]
    have : (if b = true then execOps M ty n ρ s t else execOps M ty n ρ s e) =
        execOps M ty n ρ s (if b then t else e) := by cases b <;> rfl
    rw [this, hbr, execOps_append]
    rfl
  show OutRel M ty K _ _ _ (execOp M ty n ρ s (.ite c rs t e)) _
  rw [hsrc]
  have hny := no_yield (M := M) (ty := ty) (n := n) (ρ := ρ) (s := s) e5
  rw [e2] at hq
  rw [e3] at hq
  simp only at hq ⊢
  have hfr : ∀ ρ1 s1, execOps M ty n ρ s os0 = some (.next ρ1 s1) → ∀ x, D x → ρ1 x = ρ x :=
    fun ρ1 s1 h x hx => frame_ops h fun hm => hbD x (by simp [hm]) hx
  revert hq hny hfr
  generalize execOps M ty n ρ s os0 = q
  generalize execOps M ty n ρ' s body = q'
  intro hq hny hfr
  cases hq with
  | none => exact .none
  | next h1 =>
    rename_i ρ1 ρ1' s1
    obtain ⟨m1, m2⟩ := h1.map w1
    rw [← e4] at m1
    simp only [andThen, afterIf]
    rw [m1]
    refine .next ?_
    have hI : Inv M ty D A1 (canonOps ty st (os0 ++ [.yield vs0])).2.1 ρ ρ1' := by
      have := h1.weaken (D' := D) fun x hx => scopeAfter_of os0 hx
      exact ⟨this.avail, fun x hx => by rw [← this.same x hx, hfr _ _ rfl x hx], this.tyEq, this.typed,
        this.const, this.cast⟩
    refine hI.forwardAll ?_ ?_
    · intro y hy
      rw [e4, List.mem_map] at hy
      obtain ⟨x, hx, rfl⟩ := hy
      exact h1.avail x (w1 x hx)
    · rw [w2, e4, List.map_map]
      exact List.map_congr_left fun x hx => h1.tyEq x (w1 x hx)
  | yield _ _ => exact absurd rfl (hny _ _)
  | cont hk hv => exact .cont hk hv
  | brk hk hv => exact .brk hk hv
  | exit => exact .exit
  | trap => exact .trap
  | stuck => exact .stuck

/-! ## The simulation -/

mutual
theorem sim_op {M : Machine O S} (hM : M.Lawful) (ty : Value → Ty) (n : Nat) : (o : Op) →
    ∀ (K : Ctx) (D A : Value → Prop) (st : St), WfOp ty K D o → (bindersOp o).Nodup →
    (∀ x ∈ bindersOp o, ¬ A x) → (∀ x ∈ bindersOp o, ¬ D x) →
    Sim M ty n K D A (bindersOp o) (fun x => D x ∨ x ∈ o.results) st (fun ρ s => execOp M ty n ρ s o)
      (canonOp ty st o)
  | .const r v, K, D, A, st, hw, _, hA, _ => by
    obtain ⟨w, hr, h1, h2, h3⟩ := hw
    rw [canonOp]
    refine Sim.leave fun ρ ρ' s hi => ?_
    simp only [execOp, hr]
    refine .next (hi.keep (hA r (by simp [bindersOp])) (by rw [hr]; exact ⟨_, rfl⟩) ?_ (by simp))
    rintro k ⟨⟩
    exact ⟨w, hr, h1, h2, h3, rfl⟩
  | .constBool r v, K, D, A, st, hw, _, hA, _ => by
    have hr : ty r = .int 1 := hw
    rw [canonOp]
    refine Sim.leave fun ρ ρ' s hi => ?_
    simp only [execOp, hr]
    exact .next (hi.keep (hA r (by simp [bindersOp])) (by rw [hr]; exact ⟨_, rfl⟩) (by simp) (by simp))
  | .bin o r a b, K, D, A, st, hw, _, hA, _ => by
    obtain ⟨ha, hb, w, hr, hta, htb, h1, h2, h3⟩ := hw
    rw [canonOp]
    have tys : ∀ ρ ρ' : Env O, Inv M ty D A st ρ ρ' → ty (st.sub a) = .int w ∧ ty (st.sub b) = .int w ∧
        A (st.sub a) ∧ A (st.sub b) ∧ ρ a = ρ' (st.sub a) ∧ ρ b = ρ' (st.sub b) := fun ρ ρ' hi =>
      ⟨by rw [hi.tyEq a ha, hta], by rw [hi.tyEq b hb, htb], hi.avail a ha, hi.avail b hb, hi.same a ha,
        hi.same b hb⟩
    split
    · rename_i hf
      refine ⟨A, fun _ h => h, fun _ h => .inl h, fun ρ ρ' s hi => ?_⟩
      obtain ⟨t1, t2, a1, a2, s1, s2⟩ := tys ρ ρ' hi
      obtain ⟨x, y, e1, e2, e3, -⟩ := fold_sound hi hr t1 t2 h1 h2 h3 a1 a2 hf
      simp only [execOp, execOps, s1, s2, e3, Arith.replacement, ← e1]
      exact .next (hi.forward a1 (by rw [t1, hr]))
    · rename_i hf
      refine ⟨A, fun _ h => h, fun _ h => .inl h, fun ρ ρ' s hi => ?_⟩
      obtain ⟨t1, t2, a1, a2, s1, s2⟩ := tys ρ ρ' hi
      obtain ⟨x, y, e1, e2, e3, -⟩ := fold_sound hi hr t1 t2 h1 h2 h3 a1 a2 hf
      simp only [execOp, execOps, s1, s2, e3, Arith.replacement, ← e2]
      exact .next (hi.forward a2 (by rw [t2, hr]))
    · rename_i v hf
      refine Sim.leave fun ρ ρ' s hi => ?_
      obtain ⟨t1, t2, a1, a2, s1, s2⟩ := tys ρ ρ' hi
      obtain ⟨x, y, e1, e2, e3, e4⟩ := fold_sound hi hr t1 t2 h1 h2 h3 a1 a2 hf
      simp only [execOp, s1, s2, e3, Arith.replacement, hr]
      refine .next (hi.keep (hA r (by simp [bindersOp])) (by rw [hr]; exact ⟨_, rfl⟩) ?_ (by simp))
      rintro k ⟨⟩
      exact ⟨w, hr, h1, h2, .inl (e4 v rfl), rfl⟩
    · refine Sim.leave fun ρ ρ' s hi => ?_
      obtain ⟨t1, t2, a1, a2, s1, s2⟩ := tys ρ ρ' hi
      simp only [execOp, s1, s2]
      cases hv : binVal o (ρ' (st.sub a)) (ρ' (st.sub b)) with
      | none => exact .trap
      | some v =>
        refine .next (hi.keep (hA r (by simp [bindersOp])) ?_ (by simp) (by simp))
        rw [hr]
        exact binVal_typed (t1 ▸ hi.typed _ a1) hv
  | .cast r a, K, D, A, st, hw, _, hA, _ => by
    have ha : D a := hw
    rw [canonOp]
    split
    · rename_i v hf
      refine ⟨A, fun _ h => h, fun _ h => .inl h, fun ρ ρ' s hi => ?_⟩
      have key : A v ∧ ty v = ty r ∧ M.cast (ty a) (ty r) (ρ a) = some (ρ' v) := by
        rw [hi.same a ha, ← hi.tyEq a ha]
        have hAa := hi.avail a ha
        unfold foldCast at hf
        split at hf
        · rename_i e
          simp only [Option.some.injEq] at hf
          subst hf
          refine ⟨hAa, e, ?_⟩
          rw [e, hM.cast_same _ _ (e ▸ hi.typed _ hAa)]
        · cases hdef : st.defs (st.sub a) with
          | const _ => simp [hdef] at hf
          | other => simp [hdef] at hf
          | castOf i =>
            simp only [hdef] at hf
            split at hf
            · rename_i e
              simp only [Option.some.injEq] at hf
              subst hf
              obtain ⟨hAi, hci⟩ := hi.cast _ _ hAa hdef
              refine ⟨hAi, e, ?_⟩
              rw [← e]
              exact hM.cast_back _ _ _ _ (hi.typed _ hAi) hci
            · cases hf
      simp only [execOp, execOps, key.2.2]
      exact .next (hi.forward key.1 key.2.1)
    · refine Sim.leave fun ρ ρ' s hi => ?_
      simp only [execOp, hi.same a ha, ← hi.tyEq a ha]
      cases hv : M.cast (ty (st.sub a)) (ty r) (ρ' (st.sub a)) with
      | none => exact .stuck
      | some v =>
        refine .next (hi.keep (hA r (by simp [bindersOp])) ?_ (by simp) ?_)
        · exact hM.cast_typed _ _ _ _ (hi.typed _ (hi.avail a ha)) hv
        · rintro i ⟨⟩
          exact ⟨hi.avail a ha, hv⟩
  | .plain f args rs, K, D, A, st, hw, _, hA, _ => by
    rw [canonOp]
    refine Sim.leave fun ρ ρ' s hi => ?_
    simp only [execOp, (hi.map hw).1]
    cases hp : M.plain f (rs.map ty) ((args.map st.sub).map ρ') s with
    | none => exact .trap
    | some p => exact .next (hi.keepAll hA (hM.plain_typed _ _ _ _ _ _ hp))
  | .ite c rs t e, K, D, A, st, hw, hn, hA, hD => by
    obtain ⟨hc, ht, he⟩ := hw
    simp only [bindersOp] at hn hA hD ⊢
    have hn1 := (List.nodup_append.1 hn).2.1
    have hnt := (List.nodup_append.1 hn1).1
    have hne := (List.nodup_append.1 hn1).2.1
    have pre : ∀ {os0 os : List Op}, os0 <+: os → (bindersOps os).Nodup → (bindersOps os0).Nodup ∧
        ∀ x ∈ bindersOps os0, x ∈ bindersOps os := by
      rintro os0 os ⟨r, rfl⟩ h
      rw [binders_append] at h ⊢
      exact ⟨(List.nodup_append.1 h).1, fun x hx => by simp [hx]⟩
    have iht : ∀ os0, os0 <+: t → WfOps ty ⟨some (rs.map ty), K.cont, K.brk⟩ D os0 →
        Sim M ty n ⟨some (rs.map ty), K.cont, K.brk⟩ D A (bindersOps os0) (scopeAfter D os0) st
          (fun ρ s => execOps M ty n ρ s os0) (canonOps ty st os0) := fun os0 h hw =>
      sim_ops hM ty n t os0 h _ D A st hw (pre h hnt).1
        (fun x hx => hA x (by simp [(pre h hnt).2 x hx])) (fun x hx => hD x (by simp [(pre h hnt).2 x hx]))
    have ihe : ∀ os0, os0 <+: e → WfOps ty ⟨some (rs.map ty), K.cont, K.brk⟩ D os0 →
        Sim M ty n ⟨some (rs.map ty), K.cont, K.brk⟩ D A (bindersOps os0) (scopeAfter D os0) st
          (fun ρ s => execOps M ty n ρ s os0) (canonOps ty st os0) := fun os0 h hw =>
      sim_ops hM ty n e os0 h _ D A st hw (pre h hne).1
        (fun x hx => hA x (by simp [(pre h hne).2 x hx])) (fun x hx => hD x (by simp [(pre h hne).2 x hx]))
    have hArs : ∀ r ∈ rs, ¬ A r := fun r hr => hA r (by simp [hr])
    have stay : ∀ k, Sim M ty n K D A (rs ++ (bindersOps t ++ bindersOps e)) (fun x => D x ∨ x ∈ rs) st
        (fun ρ s => execOp M ty n ρ s (.ite c rs t e))
        ([Op.ite (st.sub c) rs (canonOps ty st t).1 (canonOps ty st e).1], st.keepAll rs, k) := by
      intro k
      obtain ⟨At, -, -, hst⟩ := iht t (List.prefix_refl t) ht
      obtain ⟨Ae, -, -, hse⟩ := ihe e (List.prefix_refl e) he
      have := Sim.leave (M := M) (ty := ty) (n := n) (K := K) (D := D) (A := A)
        (D1 := fun x => D x ∨ x ∈ rs) (binders := rs) (st := st) (k := k) (st' := st.keepAll rs)
        (src := fun ρ s => execOp M ty n ρ s (.ite c rs t e))
        (o := .ite (st.sub c) rs (canonOps ty st t).1 (canonOps ty st e).1) (fun ρ ρ' s hi => by
          simp only [execOp, hi.same c hc]
          cases truth (ρ' (st.sub c)) with
          | true => exact afterIf_rel (hst ρ ρ' s hi) hi hArs
          | false => exact afterIf_rel (hse ρ ρ' s hi) hi hArs)
      obtain ⟨A1, g1, g2, g3⟩ := this
      exact ⟨A1, g1, fun x hx => (g2 x hx).imp_right fun h => by simp [h], g3⟩
    rw [canonOp]
    cases hd : decided ty st.defs (st.sub c) with
    | none => exact stay _
    | some b => cases b with
      | true =>
        simp only
        cases hs : splitYield (canonOps ty st t).1 with
        | none => exact stay _
        | some p =>
          simp only
          split
          · exact splice_sim (t := t) (e := e) true hc hd ht hs
              (fun x hx => hD x (by simp only [if_true] at hx; simp [hx])) iht
              (fun x hx => by simp only [if_true] at hx; simp [hx]) _
          · exact stay _
      | false =>
        simp only
        cases hs : splitYield (canonOps ty st e).1 with
        | none => exact stay _
        | some p =>
          simp only
          split
          · exact splice_sim (t := t) (e := e) false hc hd he hs
              (fun x hx => hD x (by simp only [Bool.false_eq_true, if_false] at hx; simp [hx])) ihe
              (fun x hx => by simp only [Bool.false_eq_true, if_false] at hx; simp [hx]) _
          · exact stay _
  | .loop inits args rs body, K, D, A, st, hw, hn, hA, hD => by
    obtain ⟨hin, hty, hb⟩ := hw
    simp only [bindersOp] at hn hA hD ⊢
    have hn1 := (List.nodup_append.1 hn).2.1
    have hdis := (List.nodup_append.1 hn1).2.2
    obtain ⟨A1, -, -, hsim⟩ := sim_ops hM ty n body body (List.prefix_refl body) _ (fun x => D x ∨ x ∈ args)
      (fun x => A x ∨ x ∈ args) (st.keepAll args) hb (List.nodup_append.1 hn1).2.1
      (fun x hx h => h.elim (hA x (by simp [hx])) fun h => hdis x h x hx rfl)
      (fun x hx h => h.elim (hD x (by simp [hx])) fun h => hdis x h x hx rfl)
    have hArs : ∀ r ∈ rs, ¬ A r := fun r hr => hA r (by simp [hr])
    rw [canonOp]
    have := Sim.leave (M := M) (ty := ty) (n := n) (K := K) (D := D) (A := A)
      (D1 := fun x => D x ∨ x ∈ rs) (binders := rs) (st := st) (k := (canonOps ty (st.keepAll args) body).2.2)
      (st' := st.keepAll rs)
      (src := fun ρ s => execOp M ty n ρ s (.loop inits args rs body))
      (o := .loop (inits.map st.sub) args rs (canonOps ty (st.keepAll args) body).1) (fun ρ ρ' s hi => by
        simp only [execOp]
        rw [← (hi.map hin).1]
        refine afterLoop_rel (K' := ⟨none, some (args.map ty), some (rs.map ty)⟩) rfl
          (iterate_rel (D1 := scopeAfter (fun x => D x ∨ x ∈ args) body) (A1 := A1)
            (st1 := (canonOps ty (st.keepAll args) body).2.1) rfl (fun vs s hv => ?_) n _ s (hty ▸ (hi.map hin).2)) hi hArs
        exact hsim _ _ s (hi.keepAll (fun r hr => hA r (by simp [hr])) hv))
    obtain ⟨A2, g1, g2, g3⟩ := this
    exact ⟨A2, g1, fun x hx => (g2 x hx).imp_right fun h => by simp [h], g3⟩
  | .yield vs, K, D, A, st, hw, _, _, _ => by
    rw [canonOp]
    refine Sim.leave fun ρ ρ' s hi => ?_
    simp only [execOp, ← (hi.map hw.1).1]
    exact .yield hw.2 (hi.map hw.1).2
  | .cont vs, K, D, A, st, hw, _, _, _ => by
    rw [canonOp]
    refine Sim.leave fun ρ ρ' s hi => ?_
    simp only [execOp, ← (hi.map hw.1).1]
    exact .cont hw.2 (hi.map hw.1).2
  | .brk vs, K, D, A, st, hw, _, _, _ => by
    rw [canonOp]
    refine Sim.leave fun ρ ρ' s hi => ?_
    simp only [execOp, ← (hi.map hw.1).1]
    exact .brk hw.2 (hi.map hw.1).2
  | .exit f vs, K, D, A, st, hw, _, _, _ => by
    rw [canonOp]
    refine Sim.leave fun ρ ρ' s hi => ?_
    simp only [execOp, ← (hi.map hw).1]
    exact .exit

theorem sim_ops {M : Machine O S} (hM : M.Lawful) (ty : Value → Ty) (n : Nat) : (os : List Op) →
    ∀ os0, os0 <+: os → ∀ (K : Ctx) (D A : Value → Prop) (st : St), WfOps ty K D os0 →
    (bindersOps os0).Nodup → (∀ x ∈ bindersOps os0, ¬ A x) → (∀ x ∈ bindersOps os0, ¬ D x) →
    Sim M ty n K D A (bindersOps os0) (scopeAfter D os0) st (fun ρ s => execOps M ty n ρ s os0)
      (canonOps ty st os0)
  | _, [], _, K, D, A, st, _, _, _, _ =>
    ⟨A, fun _ h => h, fun _ h => .inl h, fun ρ ρ' s hi => by
      simp only [execOps, canonOps, scopeAfter]; exact .next hi⟩
  | [], p :: os0, h, _, _, _, _, _, _, _, _ => by simp at h
  | o :: os, p :: os0, h, K, D, A, st, hw, hn, hA, hD => by
    obtain ⟨rfl, h'⟩ := List.cons_prefix_cons.1 h
    simp only [WfOps] at hw
    simp only [bindersOps] at hn hA hD ⊢
    obtain ⟨n1, n2, n3⟩ := List.nodup_append.1 hn
    obtain ⟨A1, g1, g2, g3⟩ := sim_op hM ty n p K D A st hw.1 n1 (fun x hx => hA x (by simp [hx]))
      (fun x hx => hD x (by simp [hx]))
    obtain ⟨A2, k1, k2, k3⟩ := sim_ops hM ty n os os0 h' K (fun x => D x ∨ x ∈ p.results) A1
      (canonOp ty st p).2.1 hw.2.2 n2
      (fun x hx ha => (g2 x ha).elim (hA x (by simp [hx])) fun hb => n3 x hb x hx rfl)
      (fun x hx ha => ha.elim (hD x (by simp [hx])) fun hb => n3 x (results_binders p x hb) x hx rfl)
    refine ⟨A2, fun x hx => k1 x (g1 x hx), fun x hx => ?_, fun ρ ρ' s hi => ?_⟩
    · rcases k2 x hx with h | h
      · exact (g2 x h).imp_right fun h => by simp [h]
      · exact .inr (by simp [h])
    · have q := g3 ρ ρ' s hi
      simp only [canonOps, execOps_append]
      rw [execOps]
      simp only at q
      revert q
      generalize execOp M ty n ρ s p = q
      generalize execOps M ty n ρ' s (canonOp ty st p).1 = q'
      intro hq
      cases hq with
      | none => exact .none
      | next hi' => exact k3 _ _ _ hi'
      | yield hk hv => exact .yield hk hv
      | cont hk hv => exact .cont hk hv
      | brk hk hv => exact .brk hk hv
      | exit => exact .exit
      | trap => exact .trap
      | stuck => exact .stuck
end

end Verif.Canon
