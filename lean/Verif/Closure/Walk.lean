import Verif.Closure.Lift2
/-!
# One turn over a function
-/
namespace Verif.Closure
open Verif.CallConv (Conv)

theorem wf_mono {n n' : Nat} (h : n ≤ n') {fn : Func} (hw : fn.WF n) : fn.WF n' :=
  ⟨hw.nodup, fun x hx => Nat.lt_of_lt_of_le (hw.params x hx) h, hw.inScope, below_mono h _ hw.below⟩

/-- What one turn leaves of a piece of code. -/
structure WalkOk (q : Prog) (E : Option Var) (S S' : List Var) (m : Map) (c : Code) (st : St) (c' : Code) (st' : St) : Prop where
  next : st.next ≤ st'.next
  out : ∃ new, st'.out = st.out ++ new ∧ ∀ x ∈ new, x.2.WF st'.next
  inScope : Scoped E S' c'
  below : Below st'.next c'
  alpha : (∀ x ∈ st'.out, q.find x.1 = some x.2) → Alpha q E E (pm S m) c c'

theorem WalkOk.mem {q : Prog} {E : Option Var} {S S' : List Var} {m : Map} {c c' : Code} {st st' : St}
    (h : WalkOk q E S S' m c st c' st') : ∀ x ∈ st.out, x ∈ st'.out := by
  obtain ⟨new, h1, _⟩ := h.out
  intro x hx
  rw [h1]; simp [hx]

theorem out_trans {a b c : St} (hn : b.next ≤ c.next) (h1 : ∃ new, b.out = a.out ++ new ∧ ∀ x ∈ new, x.2.WF b.next)
    (h2 : ∃ new, c.out = b.out ++ new ∧ ∀ x ∈ new, x.2.WF c.next) :
    ∃ new, c.out = a.out ++ new ∧ ∀ x ∈ new, x.2.WF c.next := by
  obtain ⟨x, e1, w1⟩ := h1
  obtain ⟨y, e2, w2⟩ := h2
  refine ⟨x ++ y, by rw [e2, e1, List.append_assoc], ?_⟩
  intro z hz
  rcases List.mem_append.mp hz with h | h
  · exact wf_mono hn (w1 z h)
  · exact w2 z h

theorem walk_ok (q : Prog) {n₀ : Nat} (fname : Sym) : ∀ (c : Code) {E : Option Var} {S S' : List Var} {m : Map} {st : St},
    Scoped E S c → Below n₀ c → Moves n₀ m → InjOn S m → (∀ e, E = some e → e ∈ S ∧ m e = e) → Scope' n₀ S S' m →
    n₀ ≤ st.next → (∀ y ∈ S', y < st.next) → (∀ v, v < n₀ → m v < st.next) →
    WalkOk q E S S' m c st (walk fname E m c st).1 (walk fname E m c st).2
  | .ret x, E, S, S', m, st, hs, hb, _, _, _, hS, hn, _, hlt =>
    ⟨Nat.le_refl _, ⟨[], by simp [walk], by simp⟩, hS.image x hs, hlt x hb, fun _ => .ret (pm_mem hs)⟩
  | .tail conv site args, E, S, S', m, st, hs, hb, _, _, _, hS, hn, _, hlt => by
    refine ⟨Nat.le_refl _, ⟨[], by simp [walk], by simp⟩, ?_, ?_, fun _ => .tail (pm_map hs)⟩
    · intro a ha
      obtain ⟨b, hb, rfl⟩ := List.mem_map.mp ha
      exact hS.image b (hs b hb)
    · intro a ha
      obtain ⟨b, h1, rfl⟩ := List.mem_map.mp ha
      exact hlt b (hb b h1)
  | .op r o args k, E, S, S', m, st, hs, hb, hm, hi, hE, hS, hn, hl, hlt => by
    obtain ⟨ha, hr, hk⟩ := hs
    obtain ⟨hb1, hb2, hb3⟩ := hb
    have hne := hm.not hb2 hr
    have hr' := hS.not hr hb2
    have ih := walk_ok q fname k (st := st) hk hb3 (hm.set r) (injOn_cons hi hne) (fun e h =>
      ⟨by simp [(hE e h).1], by rw [set_ne (ne_of_mem_of_not_mem (hE e h).1 hr)]; exact (hE e h).2⟩) (hS.cons r) hn
      (cons_lt hl (by vomega)) (set_lt hlt (by vomega))
    simp only [walk]
    refine ⟨ih.next, ih.out, ⟨?_, hr', ih.inScope⟩, ⟨?_, ?_, ih.below⟩, fun hq => .op (pm_map ha)
      (fun v hv => hne v (pm_some hv).1 (pm_some hv).2) ?_⟩
    · intro a ha'
      obtain ⟨b, hb, rfl⟩ := List.mem_map.mp ha'
      exact hS.image b (ha b hb)
    · intro a ha'
      obtain ⟨b, h1, rfl⟩ := List.mem_map.mp ha'
      exact Nat.lt_of_lt_of_le (hlt b (hb1 b h1)) ih.next
    · have := ih.next; vomega
    · rw [pm_upd]; exact ih.alpha hq
  | .cond r c t e k, E, S, S', m, st, hs, hb, hm, hi, hE, hS, hn, hl, hlt => by
    obtain ⟨hc, ht, he, hr, hk⟩ := hs
    obtain ⟨hb1, hbt, hbe, hb2, hb3⟩ := hb
    have hne := hm.not hb2 hr
    have hr' := hS.not hr hb2
    have i1 := walk_ok q fname t (st := st) ht hbt hm hi hE hS hn hl hlt
    have n1 := i1.next
    have i2 := walk_ok q fname e (st := (walk fname E m t st).2) he hbe hm hi hE hS (Nat.le_trans hn n1)
      (fun y hy => Nat.lt_of_lt_of_le (hl y hy) n1) (fun v hv => Nat.lt_of_lt_of_le (hlt v hv) n1)
    have n2 := i2.next
    have n12 := Nat.le_trans n1 n2
    have i3 := walk_ok q fname k (st := (walk fname E m e (walk fname E m t st).2).2) hk hb3 (hm.set r) (injOn_cons hi hne)
      (fun e h => ⟨by simp [(hE e h).1], by rw [set_ne (ne_of_mem_of_not_mem (hE e h).1 hr)]; exact (hE e h).2⟩) (hS.cons r)
      (Nat.le_trans hn n12)
      (cons_lt (fun y hy => Nat.lt_of_lt_of_le (hl y hy) n12) (by vomega))
      (set_lt (fun v hv => Nat.lt_of_lt_of_le (hlt v hv) n12) (by vomega))
    have n3 := i3.next
    simp only [walk]
    refine ⟨by vomega, out_trans n3 (out_trans n2 i1.out i2.out) i3.out, ⟨hS.image c hc, i1.inScope, i2.inScope, hr', i3.inScope⟩,
      ⟨?_, below_mono (by vomega) _ i1.below, below_mono n3 _ i2.below, by vomega, i3.below⟩, fun hq => ?_⟩
    · have := hlt c hb1; vomega
    · have q2 : ∀ x ∈ (walk fname E m e (walk fname E m t st).2).2.out, q.find x.1 = some x.2 := fun x hx => hq x (i3.mem x hx)
      have q1 : ∀ x ∈ (walk fname E m t st).2.out, q.find x.1 = some x.2 := fun x hx => q2 x (i2.mem x hx)
      refine .cond (pm_mem hc) (i1.alpha q1) (i2.alpha q2) (fun v hv => hne v (pm_some hv).1 (pm_some hv).2) ?_
      rw [pm_upd]; exact i3.alpha hq
  | .lambda r caps conv ty ps body k, E, S, S', m, st, hs, hb, hm, hi, hE, hS, hn, hl, hlt => by
    obtain ⟨hcaps, hr, hk, slot, hslot, hps, hdis, hbody⟩ := hs
    obtain ⟨hb1, hb2, hb3, hbps, hbb⟩ := hb
    have hne := hm.not hb2 hr
    have hr' := hS.not hr hb2
    have hcapsS : ∀ a ∈ caps.map m, a ∈ S' := by
      intro a ha'
      obtain ⟨b, hb, rfl⟩ := List.mem_map.mp ha'
      exact hS.image b (hcaps b hb)
    cases hacc : accept conv ty ps with
    | none =>
      have hsub := rebinds_mem (slot := slot) hcaps (fun e h => (hE e h).1)
      have hrb := rebinds_rename (slot := slot) hi hcaps hE
      have ih := walk_ok q fname k (st := st) hk hb3 (hm.set r) (injOn_cons hi hne) (fun e h =>
        ⟨by simp [(hE e h).1], by rw [set_ne (ne_of_mem_of_not_mem (hE e h).1 hr)]; exact (hE e h).2⟩) (hS.cons r) hn
        (cons_lt hl (by vomega)) (set_lt hlt (by vomega))
      have hnx := ih.next
      simp only [walk, hacc]
      refine ⟨ih.next, ih.out, ⟨hcapsS, hr', ih.inScope, slot, hslot, hps, ?_, ?_⟩, ⟨?_, by vomega, ih.below, ?_, ?_⟩, fun hq => ?_⟩
      · rw [hrb]
        intro x hx h
        have h1 := hdis x hx
        rcases List.mem_append.mp h with h | h
        · obtain ⟨a, ha, e⟩ := List.mem_map.mp h
          exact hm.not (S := caps ++ (rebinds slot E caps).toList) (hbps x hx) h1 a (by simp [ha]) e
        · exact h1 (by simp [h])
      · rw [hrb]
        exact scoped_rename body hbody hbb (hm.setAll _) (injOn_inner hi hm hsub hps hdis hbps)
          (innerEv_inner hE hdis) (scope_inner (S := S) hm hE hdis)
      · intro a ha'
        have := hl a (hcapsS a ha'); vomega
      · intro x hx; have := hbps x hx; vomega
      · refine below_mono hnx _ (below_rename hn body hbb ?_)
        intro v hv
        by_cases h : v ∈ ps.map Prod.fst
        · rw [setAll_self (m := m) h]; vomega
        · rw [setAll_not (m := m) h]; exact hlt v hv
      · refine .lambda slot hslot (pm_map hcaps) (pm_inj hi) ?_ rfl hps hps ?_ ?_
          (fun v hv => hne v (pm_some hv).1 (pm_some hv).2) ?_
        · intro e h
          exact ⟨e, h, by rw [pm_mem (hE e h).1, (hE e h).2]⟩
        · intro y hy v hv
          rw [pm_only hsub] at hv
          obtain ⟨h1, h2⟩ := pm_some hv
          exact hm.not (hbps y hy) (hdis y hy) v h1 h2
        · rw [hrb, pm_only hsub, pm_updAll (f := id) rfl]
          exact alpha_rename q body hbody hbb (hm.setAll _) (injOn_inner hi hm hsub hps hdis hbps) (innerEv_inner hE hdis)
        · rw [pm_upd]; exact ih.alpha hq
    | some slot' =>
      obtain ⟨a1, a2, a3⟩ := accept_some hacc
      rw [hslot] at a1
      cases a1
      obtain ⟨l1, l2, l3⟩ := lift_ok q (body := body) hn hm hi hE hcaps hps hdis hbody hbps hbb a3
      revert l1 l2 l3
      simp only [walk, hacc]
      generalize lift st.next slot (implicitEvidence slot E (caps.map m)) (caps.map m) ps
        (renameUses (m.setAll (ps.map Prod.fst) (ps.map Prod.fst)) body) = l
      obtain ⟨fn, n₁⟩ := l
      intro l1 l2 ⟨evv, envv, cst, ps', gs, body', hL, hA⟩
      simp only at l1 l2 hL hA ⊢
      generalize hst₁ : (St.mk (n₁ + 2) (fun f => if f = fname then st.counters fname + 1 else st.counters f)
        (st.out ++ [(clamName fname (st.counters fname), fn)])) = st₁
      have hnext : st₁.next = n₁ + 2 := by rw [← hst₁]
      have hout : st₁.out = st.out ++ [(clamName fname (st.counters fname), fn)] := by rw [← hst₁]
      have hmS : ∀ v ∈ S, m v < n₁ := fun v hv => Nat.lt_of_lt_of_le (hl _ (hS.image v hv)) l1
      have ih := walk_ok q fname k (S := r :: S) (S' := (n₁ + 1) :: n₁ :: S') (m := m.set r (n₁ + 1)) (st := st₁) hk hb3
        (hm.setTo (by vomega))
        (injOn_cons hi (fun v hv e => by have := hmS v hv; vomega)) (fun e h =>
        ⟨by simp [(hE e h).1], by rw [set_ne (ne_of_mem_of_not_mem (hE e h).1 hr)]; exact (hE e h).2⟩)
        ⟨?_, ?_⟩ (by rw [hnext]; vomega) ?_ ?_
      · have hnx := ih.next
        rw [hnext] at hnx
        refine ⟨by vomega, out_trans ih.next ?_ ih.out, ⟨hcapsS, ?_, ?_, ?_, ih.inScope⟩, ⟨?_, by vomega, ?_, by vomega, ih.below⟩, fun hq => ?_⟩
        · refine ⟨[(clamName fname (st.counters fname), fn)], hout, ?_⟩
          intro x hx
          simp only [List.mem_singleton] at hx
          subst hx
          exact wf_mono (by rw [hnext]; vomega) l2
        · intro h; have := hl _ h; vomega
        · simp
        · simp only [List.mem_cons, not_or]
          exact ⟨by vomega, fun h => by have := hl _ h; vomega⟩
        · intro a ha; have := hl a (hcapsS a ha); vomega
        · intro a ha
          simp only [List.mem_singleton] at ha
          vomega
        · have hfind : q.find (clamName fname (st.counters fname)) = some fn :=
            hq (clamName fname (st.counters fname), fn) (ih.mem _ (by rw [hout]; simp))
          have hcond : (if (caps.map m).isEmpty = true then Opr.null else Opr.pack) = (if caps = [] then Opr.null else Opr.pack) := by
            cases caps <;> simp
          rw [hcond]
          refine .lift slot hslot (pm_map hcaps) hfind hps hdis hL hA ?_ ?_ (by vomega) ?_
          · intro v hv
            have := hmS v (pm_some hv).1
            have := (pm_some hv).2
            vomega
          · intro v hv
            have := hmS v (pm_some hv).1
            have := (pm_some hv).2
            vomega
          · rw [pm_upd]; exact ih.alpha hq
      · intro v hv
        by_cases e : v = r
        · rw [e, set_same]; simp
        · rw [set_ne e]; simp [hS.image v (by simpa [e] using hv)]
      · intro y hy
        rcases List.mem_cons.mp hy with e | hy
        · right; vomega
        · rcases List.mem_cons.mp hy with e | hy
          · right; vomega
          · rcases hS.only y hy with h | h
            · left; simp [h]
            · right; exact h
      · intro y hy
        rw [hnext]
        rcases List.mem_cons.mp hy with e | hy
        · vomega
        · rcases List.mem_cons.mp hy with e | hy
          · vomega
          · have := hl y hy; vomega
      · intro v hv
        rw [hnext]
        by_cases e : v = r
        · rw [e, set_same]; vomega
        · rw [set_ne e]; have := hlt v hv; vomega
where
  cons_lt {S' : List Var} {n : Nat} {r : Var} (h : ∀ y ∈ S', y < n) (hr : r < n) : ∀ y ∈ r :: S', y < n := by
    intro y hy
    rcases List.mem_cons.mp hy with e | hy
    · rw [e]; exact hr
    · exact h y hy
  set_lt {m : Map} {n n₀ : Nat} {r : Var} (h : ∀ v, v < n₀ → m v < n) (hr : r < n) : ∀ v, v < n₀ → m.set r r v < n := by
    intro v hv
    by_cases e : v = r
    · rw [e, set_same]; exact hr
    · rw [set_ne e]; exact h v hv

end Verif.Closure
