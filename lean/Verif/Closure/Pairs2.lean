import Verif.Closure.Pairs
/-!
# The second pass on a module, and both passes
-/
namespace Verif.Closure
open Verif.CallConv (Conv)
variable {B σ : Type}

theorem run2 (S : Sem B σ) {p q : Prog} (hp : P2 p q) : ∀ (n : Nat) (fr fr' : Frame B) (s : σ), F2 fr fr' →
    R2 (run S p n fr s) (run S q n fr' s) := by
  intro n
  induction n with
  | zero => intro fr fr' s _; exact .out
  | succ n ih =>
    intro fr fr' s h
    obtain ⟨m, T, h1, h2, h3, h4, h5, h6, h7, h8⟩ := h.code
    simp only [run]
    rw [h1, h.evVar]
    exact sim2 S hp ih fr.code h2 h4 h5 h3 h6 h7 h8 h.evVal (by rw [← h.evVar]; exact h.evLook)

theorem result2 (S : Sem B σ) {p q : Prog} (hp : P2 p q) (n : Nat) (f : Sym) (bs : List B) (s : σ) :
    R2 (result S p n f bs s) (result S q n f bs s) := by
  unfold result
  have hb : V2s (bs.map Val.base) (bs.map Val.base) := by
    induction bs with
    | nil => exact .nil
    | cons b bs ih => exact .cons (.base b) ih
  cases h : callFn p f (bs.map .base) with
  | none => exact .err _
  | some fr =>
    obtain ⟨fr', h1, h2⟩ := callFn_2 hp hb h
    rw [h1]
    exact run2 S hp n fr fr' s h2

theorem same_of_r2 {r r' : Res B σ} (h : R2 r r') (hr : r ≠ .err) : Same r r' := by
  cases h with
  | err => exact absurd rfl hr
  | out => exact .out
  | ok h =>
    refine .ok ?_
    intro b
    cases h with
    | base c => exact Iff.rfl
    | _ => simp

theorem legal_of_marked : ∀ (c : Code), NoLambda c → CallsMarked c → legal c = true
  | .ret _, _, _ => rfl
  | .tail conv site args, _, hm => by
    obtain ⟨hne, hcl, hmk⟩ := hm
    cases args with
    | nil => exact absurd rfl hne
    | cons c args =>
      simp only [legal]
      cases hp : site.ty.prov.isSome with
      | false => rfl
      | true =>
        obtain ⟨h1, h2⟩ := hmk (by rw [hcl, hp])
        have h3 : CallsMarked.SiteMarked conv site args.length := by simpa using h2
        obtain ⟨slot, hs, _⟩ := id h3
        rw [callArgs_marked h3 hs, h1]
        rfl
  | .op r o args k, hl, hm => by
    have ih := legal_of_marked k hl hm.2
    cases o with
    | callInd conv site =>
      obtain ⟨hne, hcl, hmk⟩ := hm.1 conv site rfl
      cases args with
      | nil => exact absurd rfl hne
      | cons c args =>
        simp only [legal, ih, Bool.and_true]
        cases hp : site.ty.prov.isSome with
        | false => rfl
        | true =>
          have h3 : CallsMarked.SiteMarked conv site args.length := by simpa using hmk (hcl hp)
          obtain ⟨slot, hs, _⟩ := id h3
          rw [callArgs_marked h3 hs]
          rfl
    | _ => exact ih
  | .cond _ _ t e k, hl, hm => by
    simp only [legal, legal_of_marked t hl.1 hm.1, legal_of_marked e hl.2.1 hm.2.1, legal_of_marked k hl.2.2 hm.2.2,
      Bool.and_self]
  | .lambda _ _ _ _ _ _ _, hl, _ => absurd hl (by simp [NoLambda])

theorem lowerFns_fst : ∀ (fns : List (Sym × Func)) (n : Nat), (lowerFns fns n).1.map Prod.fst = fns.map Prod.fst
  | [], _ => rfl
  | (f, fn) :: rest, n => by
    simp only [lowerFns, List.map_cons]
    rw [lowerFns_fst rest]

theorem lowerFns_mem : ∀ (fns : List (Sym × Func)) {n₀ n : Nat}, n₀ ≤ n →
    (∀ x ∈ fns, x.2.WF n₀ ∧ NoLambda x.2.body ∧ CallsMarked x.2.body) → ∀ x ∈ fns, ∃ k, n₀ ≤ k ∧
      (x.1, (⟨x.2.params, (lowerCalls (firstEvidence x.2.params) k x.2.body).1⟩ : Func)) ∈ (lowerFns fns n).1
  | [], _, _, _, _, x, hx => by simp at hx
  | (f, fn) :: rest, n₀, n, hn, hw, x, hx => by
    obtain ⟨h1, h2, h3⟩ := hw (f, fn) (by simp)
    simp only [lowerFns, evArg_eq, legal_of_marked _ h2 h3, if_true]
    rcases List.mem_cons.mp hx with e | hx
    · subst e
      exact ⟨n, hn, by simp⟩
    · obtain ⟨k, k1, k2⟩ := lowerFns_mem rest (Nat.le_trans hn (sim2.lowerCalls_mono fn.body (firstEvidence fn.params) n))
        (fun y hy => hw y (by simp [hy])) x hx
      exact ⟨k, k1, List.mem_cons_of_mem _ k2⟩

theorem lowerFns_of_mem : ∀ (fns : List (Sym × Func)) {n : Nat},
    (∀ x ∈ fns, NoLambda x.2.body ∧ CallsMarked x.2.body) → ∀ y ∈ (lowerFns fns n).1, ∃ x ∈ fns, ∃ k,
      y = (x.1, ⟨x.2.params, (lowerCalls (firstEvidence x.2.params) k x.2.body).1⟩)
  | [], _, _, y, hy => by simp [lowerFns] at hy
  | (f, fn) :: rest, n, hw, y, hy => by
    obtain ⟨h2, h3⟩ := hw (f, fn) (by simp)
    simp only [lowerFns, evArg_eq, legal_of_marked _ h2 h3, if_true] at hy
    rcases List.mem_cons.mp hy with e | hy
    · exact ⟨(f, fn), by simp, n, e⟩
    · obtain ⟨x, hx, k, e⟩ := lowerFns_of_mem rest (fun y hy => hw y (by simp [hy])) y hy
      exact ⟨x, by simp [hx], k, e⟩

theorem p2_lower {p : Prog} (hp : p.WF) (hl : ∀ x ∈ p.fns, NoLambda x.2.body) (hm : ∀ x ∈ p.fns, CallsMarked x.2.body) :
    P2 p (lowerClosures p) := by
  intro f fn hf
  have hmem := mem_find hf
  obtain ⟨k, k1, k2⟩ := lowerFns_mem p.fns (n := p.next) (Nat.le_refl _) (fun x hx => ⟨hp.fns x hx, hl x hx, hm x hx⟩) _ hmem
  have hnd : ((lowerClosures p).fns.map Prod.fst).Nodup := by
    simp only [lowerClosures]
    rw [lowerFns_fst]
    exact hp.names
  refine ⟨k, ?_, wf_mono k1 (hp.fns _ hmem), hl _ hmem, hm _ hmem⟩
  exact find_mem hnd (x := (f, ⟨fn.params, _⟩)) k2

/-! ## No closure is left -/

theorem noClosure_lower : ∀ (c : Code) {E : Option Var} {n : Nat}, NoLambda c → CallsMarked c → NoClosure (lowerCalls E n c).1
  | .ret _, _, _, _, _ => trivial
  | .tail conv site args, E, n, _, hm => by
    obtain ⟨hne, hcl, hmk⟩ := hm
    cases args with
    | nil => exact absurd rfl hne
    | cons c args =>
      cases hc : site.isClosure with
      | false =>
        have : ¬ (conv = some .cps ∧ site.ty.prov.isSome = true) := by rw [← hcl, hc]; simp
        simp only [lowerCalls, lowerTail, this, if_false, Option.getD_none, NoClosure]
        exact hc
      | true =>
        obtain ⟨h1, h2⟩ := hmk hc
        have h3 : CallsMarked.SiteMarked conv site args.length := by simpa using h2
        obtain ⟨slot, hs, _⟩ := id h3
        have : conv = some .cps ∧ site.ty.prov.isSome = true := ⟨h1, by rw [← hcl, hc]⟩
        simp only [lowerCalls, lowerTail, this, and_self, if_true]
        rw [← h1, callArgs_marked h3 hs]
        simp [NoClosure, pointer]
  | .op r o args k, E, n, hl, hm => by
    cases o with
    | callInd conv site =>
      obtain ⟨hne, hcl, hmk⟩ := hm.1 conv site rfl
      cases args with
      | nil => exact absurd rfl hne
      | cons c args =>
        cases hc : site.isClosure with
        | false =>
          have : lowerCall E n r conv site (c :: args) = none := by simp [lowerCall, hc]
          simp only [lowerCalls, this]
          refine ⟨by simp, ?_, noClosure_lower k hl hm.2⟩
          intro conv' site' e; cases e; exact hc
        | true =>
          have h3 : CallsMarked.SiteMarked conv site args.length := by simpa using hmk hc
          obtain ⟨slot, hs, _⟩ := id h3
          have : ∃ pre n', lowerCall E n r conv site (c :: args) = some (pre, n') ∧ ∀ k', NoClosure k' → NoClosure (pre k') := by
            cases E with
            | some e =>
              refine ⟨_, _, by simp only [lowerCall, hc, if_true, callArgs_marked h3 hs, Option.map_some]; rfl, ?_⟩
              intro k' hk'
              simp [NoClosure, pointer, hk']
            | none =>
              by_cases hleg : slotOf conv site.ty = some .legacy
              · refine ⟨_, _, by simp only [lowerCall, hc, if_true, hleg, callArgs_marked h3 hs, Option.map_some]; rfl, ?_⟩
                intro k' hk'
                simp [NoClosure, pointer, hk']
              · refine ⟨_, _, by simp only [lowerCall, hc, if_true, hleg, if_false, callArgs_marked h3 hs, Option.map_some]; rfl, ?_⟩
                intro k' hk'
                simp [NoClosure, pointer, hk']
          obtain ⟨pre, n', e1, e2⟩ := this
          simp only [lowerCalls, e1]
          exact e2 _ (noClosure_lower k hl hm.2)
    | closureNew f conv ty =>
      simp only [lowerCalls]
      exact ⟨by simp, by simp, by simp, by simp, noClosure_lower k hl hm.2⟩
    | prim _ => exact ⟨by simp, by simp, noClosure_lower k hl hm.2⟩
    | pack => exact ⟨by simp, by simp, noClosure_lower k hl hm.2⟩
    | get _ => exact ⟨by simp, by simp, noClosure_lower k hl hm.2⟩
    | null => exact ⟨by simp, by simp, noClosure_lower k hl hm.2⟩
    | cast => exact ⟨by simp, by simp, noClosure_lower k hl hm.2⟩
    | call _ => exact ⟨by simp, by simp, noClosure_lower k hl hm.2⟩
    | constant _ => exact ⟨by simp, by simp, noClosure_lower k hl hm.2⟩
  | .cond _ _ t e k, E, n, hl, hm => by
    simp only [lowerCalls]
    exact ⟨noClosure_lower t hl.1 hm.1, noClosure_lower e hl.2.1 hm.2.1, noClosure_lower k hl.2.2 hm.2.2⟩
  | .lambda _ _ _ _ _ _ _, _, _, hl, _ => absurd hl (by simp [NoLambda])

/-! ## Lifting keeps the marks of calls -/

theorem calls_rename : ∀ (c : Code) {m : Map}, CallsMarked c → CallsMarked (renameUses m c)
  | .ret _, _, _ => trivial
  | .tail conv site args, m, h => by
    refine ⟨by simpa using h.1, h.2.1, ?_⟩
    intro hc; simpa using h.2.2 hc
  | .op _ _ args k, m, h => by
    refine ⟨?_, calls_rename k h.2⟩
    intro conv site e
    have := h.1 conv site e
    refine ⟨by simpa using this.1, this.2.1, ?_⟩
    intro hc; simpa using this.2.2 hc
  | .cond _ _ t e k, m, h => ⟨calls_rename t h.1, calls_rename e h.2.1, calls_rename k h.2.2⟩
  | .lambda _ _ _ _ _ body k, m, h => ⟨calls_rename body h.1, calls_rename k h.2⟩

theorem calls_clone : ∀ (c : Code) {m : Map} {n : Nat}, CallsMarked c → CallsMarked (clone m n c).1
  | .ret _, _, _, _ => trivial
  | .tail conv site args, m, n, h => by
    refine ⟨by simpa using h.1, h.2.1, ?_⟩
    intro hc; simpa using h.2.2 hc
  | .op _ _ args k, m, n, h => by
    simp only [clone]
    refine ⟨?_, calls_clone k h.2⟩
    intro conv site e
    have := h.1 conv site e
    refine ⟨by simpa using this.1, this.2.1, ?_⟩
    intro hc; simpa using this.2.2 hc
  | .cond _ _ t e k, m, n, h => by
    simp only [clone]
    exact ⟨calls_clone t h.1, calls_clone e h.2.1, calls_clone k h.2.2⟩
  | .lambda _ _ _ _ _ body k, m, n, h => by
    simp only [clone]
    exact ⟨calls_clone body h.1, calls_clone k h.2⟩

theorem calls_loads {cst : Var} {k : Code} (h : CallsMarked k) : ∀ (gs : List Var) (i : Nat), CallsMarked (loads cst i gs k)
  | [], _ => h
  | _ :: gs, i => ⟨(fun _ _ e => by cases e), calls_loads h gs _⟩

theorem calls_lift {n : Nat} {slot : Slot} {imp : Option Var} {caps : List Var} {ps : List (Var × Ty)} {body : Code}
    (h : CallsMarked body) : CallsMarked (lift n slot imp caps ps body).1.body := by
  unfold lift
  simp only
  by_cases hc : caps.isEmpty
  · simp only [hc, if_true]; exact calls_clone _ h
  · simp only [hc]
    simp only [Bool.false_eq_true, if_false]
    exact ⟨(fun _ _ e => by cases e), calls_loads (calls_clone _ h) _ _⟩

theorem walk_calls (fname : Sym) (E : Option Var) : ∀ (c : Code) {m : Map} {st : St}, CallsMarked c →
    (∀ x ∈ st.out, CallsMarked x.2.body) →
    CallsMarked (walk fname E m c st).1 ∧ ∀ x ∈ (walk fname E m c st).2.out, CallsMarked x.2.body
  | .ret _, m, st, _, h => ⟨trivial, h⟩
  | .tail _ _ _, m, st, hm, h => ⟨calls_rename (.tail _ _ _) (m := m) hm, h⟩
  | .op r o args k, m, st, hm, h => by
    have h1 := walk_calls fname E k (m := m.set r r) hm.2 h
    simp only [walk]
    refine ⟨⟨?_, h1.1⟩, h1.2⟩
    intro conv site e
    have := hm.1 conv site e
    refine ⟨by simpa using this.1, this.2.1, ?_⟩
    intro hc; simpa using this.2.2 hc
  | .cond r c t e k, m, st, hm, h => by
    simp only [walk]
    have h1 := walk_calls fname E t (m := m) hm.1 h
    have h2 := walk_calls fname E e (m := m) hm.2.1 h1.2
    have h3 := walk_calls fname E k (m := m.set r r) hm.2.2 h2.2
    exact ⟨⟨h1.1, h2.1, h3.1⟩, h3.2⟩
  | .lambda r caps conv ty ps body k, m, st, hm, h => by
    obtain ⟨m3, m4⟩ := hm
    cases hacc : accept conv ty ps with
    | none =>
      simp only [walk, hacc]
      have h1 := walk_calls fname E k (m := m.set r r) m4 h
      exact ⟨⟨calls_rename body m3, h1.1⟩, h1.2⟩
    | some slot =>
      simp only [walk, hacc]
      have h1 := walk_calls fname E k
        (m := m.set r ((lift st.next slot (implicitEvidence slot E (caps.map m)) (caps.map m) ps
          (renameUses (m.setAll (ps.map Prod.fst) (ps.map Prod.fst)) body)).2 + 1))
        (st := ⟨(lift st.next slot (implicitEvidence slot E (caps.map m)) (caps.map m) ps
          (renameUses (m.setAll (ps.map Prod.fst) (ps.map Prod.fst)) body)).2 + 2,
          (fun f => if f = fname then st.counters fname + 1 else st.counters f),
          st.out ++ [(clamName fname (st.counters fname), (lift st.next slot (implicitEvidence slot E (caps.map m)) (caps.map m) ps
          (renameUses (m.setAll (ps.map Prod.fst) (ps.map Prod.fst)) body)).1)]⟩) m4 ?_
      · refine ⟨⟨?_, ?_, h1.1⟩, h1.2⟩
        · intro conv' site e; split at e <;> cases e
        · intro conv' site e; cases e
      · intro x hx
        rcases List.mem_append.mp hx with hx | hx
        · exact h x hx
        · simp only [List.mem_singleton] at hx
          subst hx
          exact calls_lift (calls_rename body m3)

theorem walkFns_calls : ∀ (fns : List (Sym × Func)) {st : St}, (∀ x ∈ fns, CallsMarked x.2.body) →
    (∀ x ∈ st.out, CallsMarked x.2.body) →
    (∀ x ∈ (walkFns fns st).1, CallsMarked x.2.body) ∧ ∀ x ∈ (walkFns fns st).2.out, CallsMarked x.2.body
  | [], st, _, h => ⟨by simp [walkFns], h⟩
  | (f, fn) :: rest, st, hm, h => by
    simp only [walkFns]
    have h1 := walk_calls f (evArg fn.params) fn.body (m := id) (hm (f, fn) (by simp)) h
    have h2 := walkFns_calls rest (fun x hx => hm x (by simp [hx])) h1.2
    refine ⟨?_, h2.2⟩
    intro x hx
    rcases List.mem_cons.mp hx with e | hx
    · subst e; exact h1.1
    · exact h2.1 x hx

theorem loop_calls : ∀ (fuel : Nat) (p : Prog) (counters : Sym → Nat), (∀ x ∈ p.fns, CallsMarked x.2.body) →
    ∀ x ∈ (lowerLoop fuel p counters).fns, CallsMarked x.2.body
  | 0, p, counters, h => h
  | fuel + 1, p, counters, h => by
    simp only [lowerLoop]
    split
    · refine loop_calls fuel _ _ ?_
      have := walkFns_calls p.fns (st := ⟨p.next, counters, []⟩) h (by simp)
      intro x hx
      simp only [round, List.mem_append] at hx
      rcases hx with hx | hx
      · exact this.1 x hx
      · exact this.2 x hx
    · exact h

end Verif.Closure
