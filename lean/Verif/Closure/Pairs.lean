import Verif.Closure.Loop
/-!
# Closures as pairs: the second pass
-/
namespace Verif.Closure
open Verif.CallConv (Conv)
variable {B σ : Type}

/-- Related values: a closure is a pair of its function and its environment. -/
inductive V2 : Val B → Val B → Prop
  | base (b) : V2 (.base b) (.base b)
  | null : V2 .null .null
  | fn (f) : V2 (.fn f) (.fn f)
  | data {vs ws} : vs.length = ws.length →
      (∀ (i : Nat) v w, vs[i]? = some v → ws[i]? = some w → V2 v w) → V2 (.data vs) (.data ws)
  | pair {f v w slot} : V2 v w → V2 (.pair f v slot) (.data [.fn f, w])

abbrev V2s (vs ws : List (Val B)) : Prop := List.Forall₂ V2 vs ws

inductive R2 : Res B σ → Res B σ → Prop
  | err (r) : R2 .err r
  | out : R2 .out .out
  | ok {s v w} : V2 v w → R2 (.ok s v) (.ok s w)

def O2 : Option (Val B) → Option (Val B) → Prop
  | none, none => True
  | some v, some w => V2 v w
  | _, _ => False

/-- Everything in scope is related. -/
def E2 (S : List Var) (env env' : Env B) : Prop :=
  ∀ v ∈ S, ∃ x x', look env v = some x ∧ look env' v = some x' ∧ V2 x x'

structure F2 (fr fr' : Frame B) : Prop where
  evVar : fr'.evVar = fr.evVar
  code : ∃ n S, fr'.code = (lowerCalls fr.evVar n fr.code).1 ∧ Scoped fr.evVar S fr.code ∧ Below n fr.code ∧
    NoLambda fr.code ∧ CallsMarked fr.code ∧ (∀ v ∈ S, v < n) ∧ (∀ e, fr.evVar = some e → e ∈ S) ∧
    E2 S fr.env fr'.env
  evVal : O2 fr.evVal fr'.evVal
  evLook : fr'.evVal = fr'.evVar.bind (look fr'.env)

/-- The second program is the first one lowered. -/
def P2 (p q : Prog) : Prop :=
  ∀ f fn, p.find f = some fn → ∃ n, q.find f = some ⟨fn.params, (lowerCalls (firstEvidence fn.params) n fn.body).1⟩ ∧
    fn.WF n ∧ NoLambda fn.body ∧ CallsMarked fn.body

theorem R2.andThen {r r' : Res B σ} {k k' : σ → Val B → Res B σ} (h : R2 r r')
    (hk : ∀ s v w, V2 v w → R2 (k s v) (k' s w)) : R2 (r.andThen k) (r'.andThen k') := by
  cases h with
  | err => exact .err _
  | out => exact .out
  | ok h => exact hk _ _ _ h

theorem E2.cons {S : List Var} {env env' : Env B} (h : E2 S env env') {r : Var} {x x' : Val B} (hx : V2 x x') :
    E2 (r :: S) ((r, x) :: env) ((r, x') :: env') := by
  intro v hv
  by_cases e : r = v
  · exact ⟨x, x', by simp [look, e], by simp [look, e], hx⟩
  · obtain ⟨y, y', h1, h2, h3⟩ := h v (by
      rcases List.mem_cons.mp hv with h | h
      · exact absurd h.symm e
      · exact h)
    exact ⟨y, y', by simp [look, e, h1], by simp [look, e, h2], h3⟩

/-- A new reference on one side changes nothing. -/
theorem E2.fresh {S : List Var} {env env' : Env B} (h : E2 S env env') {t : Var} {x : Val B} (ht : t ∉ S) :
    E2 S env ((t, x) :: env') := by
  intro v hv
  obtain ⟨y, y', h1, h2, h3⟩ := h v hv
  have : t ≠ v := fun e => ht (e ▸ hv)
  exact ⟨y, y', h1, by simp [look, this, h2], h3⟩

theorem E2.looks {S : List Var} {env env' : Env B} (h : E2 S env env') : ∀ {args : List Var}, (∀ a ∈ args, a ∈ S) →
    ∃ vs ws, looks env args = some vs ∧ looks env' args = some ws ∧ V2s vs ws
  | [], _ => ⟨[], [], rfl, rfl, .nil⟩
  | a :: as, ha => by
    obtain ⟨x, x', h1, h2, h3⟩ := h a (ha a (by simp))
    obtain ⟨vs, ws, g1, g2, g3⟩ := h.looks (args := as) (fun b hb => ha b (by simp [hb]))
    exact ⟨x :: vs, x' :: ws, by simp [Closure.looks, h1, g1], by simp [Closure.looks, h2, g2], .cons h3 g3⟩

theorem e2_bindAll {ps : List Var} : ∀ {S : List Var} {env env' : Env B} {vs ws : List (Val B)}, E2 S env env' → V2s vs ws →
    ps.length = vs.length → E2 (ps.reverse ++ S) (bindAll env ps vs) (bindAll env' ps ws) := by
  induction ps with
  | nil => intro S env env' vs ws h _ _; simpa [bindAll] using h
  | cons x ps ih =>
    intro S env env' vs ws h hv hl
    cases hv with
    | nil => simp at hl
    | cons h1 h2 =>
      simp only [bindAll, List.reverse_cons, List.append_assoc, List.cons_append, List.nil_append]
      exact ih (h.cons h1) h2 (by simpa using hl)

theorem callFn_2 {p q : Prog} (hp : P2 p q) {f : Sym} {vs ws : List (Val B)} (h : V2s vs ws) {fr : Frame B}
    (hf : callFn p f vs = some fr) : ∃ fr', callFn q f ws = some fr' ∧ F2 fr fr' := by
  unfold callFn at hf
  cases hfn : p.find f with
  | none => rw [hfn] at hf; cases hf
  | some fn =>
    rw [hfn] at hf
    simp only at hf
    split at hf
    · next hl =>
      cases hf
      obtain ⟨n, h1, hw, h2, h3⟩ := hp f fn hfn
      have hl' : ws.length = fn.params.length := by rw [← List.Forall₂.length_eq h, hl]
      refine ⟨_, by unfold callFn; rw [h1]; simp only [hl', if_true]; rfl, ?_⟩
      have hE := e2_bindAll (ps := fn.params.map Prod.fst) (S := []) (env := ([] : Env B)) (env' := []) (fun v hv => by simp at hv) h
        (by simp [hl])
      refine ⟨rfl, ⟨n, fn.params.map Prod.fst, rfl, hw.inScope, hw.below, h2, h3, hw.params,
        fun e he => firstEvidence_mem he, ?_⟩, ?_, rfl⟩
      · intro v hv
        exact hE v (by simpa using hv)
      · cases he : firstEvidence fn.params with
        | none => trivial
        | some e =>
          obtain ⟨x, x', g1, g2, g3⟩ := hE e (by simpa using firstEvidence_mem he)
          simp only [Option.bind_some, g1, g2]
          exact g3
    · cases hf

theorem bases_2 {vs ws : List (Val B)} (h : V2s vs ws) {bs : List B} (hb : bases vs = some bs) : bases ws = some bs := by
  induction h generalizing bs with
  | nil => exact hb
  | cons h1 _ ih =>
    cases h1 with
    | base b =>
      simp only [bases, Option.map_eq_some_iff] at hb ⊢
      obtain ⟨a, h2, h3⟩ := hb
      exact ⟨a, ih h2, h3⟩
    | _ => cases hb

theorem v2_data {vs ws : List (Val B)} (h : V2s vs ws) : V2 (.data vs) (.data ws) := by
  refine .data (List.Forall₂.length_eq h) ?_
  intro i v w h1 h2
  induction h generalizing i with
  | nil => simp at h1
  | cons a _ ih =>
    cases i with
    | zero =>
      simp only [List.getElem?_cons_zero, Option.some.injEq] at h1 h2
      subst h1; subst h2; exact a
    | succ i => exact ih i (by simpa using h1) (by simpa using h2)

inductive A2 : Act B σ → Act B σ → Prop
  | err (a) : A2 .err a
  | val {s v w} : V2 v w → A2 (.val s v) (.val s w)
  | enter {fr fr'} : F2 fr fr' → A2 (.enter fr) (.enter fr')

theorem A2.andThen {a b : Act B σ} {enter enter' : Frame B → σ → Res B σ} {s : σ} {k k' : σ → Val B → Res B σ}
    (h : A2 a b) (he : ∀ fr fr' s, F2 fr fr' → R2 (enter fr s) (enter' fr' s))
    (hk : ∀ s v w, V2 v w → R2 (k s v) (k' s w)) : R2 (a.andThen enter s k) (b.andThen enter' s k') := by
  cases h with
  | err => exact .err _
  | val h => exact hk _ _ _ h
  | enter h => exact (he _ _ _ h).andThen hk

theorem ofFrame_2 {a b : Option (Frame B)} (h : ∀ fr, a = some fr → ∃ fr', b = some fr' ∧ F2 fr fr') :
    A2 (Act.ofFrame a : Act B σ) (Act.ofFrame b) := by
  cases a with
  | none => exact .err _
  | some fr => obtain ⟨fr', h1, h2⟩ := h fr rfl; rw [h1]; exact .enter h2

/-- The operations that are not lowered. -/
theorem act_2 (S : Sem B σ) {p q : Prog} (hp : P2 p q) {ev ev' : Option (Val B)} {s : σ} {o : Opr} {vs ws : List (Val B)}
    (h : V2s vs ws) (h1 : ∀ f conv ty, o ≠ .closureNew f conv ty)
    (h2 : ∀ conv site, o = .callInd conv site → site.isClosure = false) :
    A2 (act S p ev s o vs) (act S q ev' s o ws) := by
  cases o with
  | prim k =>
    simp only [act]
    cases hb : bases vs with
    | none => exact .err _
    | some bs =>
      rw [bases_2 h hb]
      cases hx : (some bs).bind (fun bs => S.prim k bs s) with
      | none => exact .err _
      | some x => exact .val (.base _)
  | pack => exact .val (v2_data h)
  | get i =>
    cases h with
    | nil => exact .err _
    | cons a t =>
      cases t with
      | cons _ _ => simp only [act]; exact .err _
      | nil =>
        cases a with
        | @data xs ys hl hx =>
          simp only [act]
          cases hg : xs[i]? with
          | none => exact .err _
          | some v =>
            obtain ⟨hi, _⟩ := List.getElem?_eq_some_iff.mp hg
            have hi' : i < ys.length := hl ▸ hi
            rw [List.getElem?_eq_getElem hi']
            exact .val (hx i v _ hg (List.getElem?_eq_getElem hi'))
        | _ => exact .err _
  | null =>
    cases h with
    | nil => exact .val .null
    | cons _ _ => exact .err _
  | cast =>
    cases h with
    | nil => exact .err _
    | cons a t =>
      cases t with
      | nil => exact .val a
      | cons _ _ => exact .err _
  | call f => exact ofFrame_2 (fun fr hf => callFn_2 hp h hf)
  | callInd conv site =>
    have hc := h2 conv site rfl
    cases h with
    | nil => exact .err _
    | cons a t =>
      refine ofFrame_2 ?_
      intro fr hf
      cases a with
      | fn f =>
        simp only [callVal, hc, Bool.false_eq_true, if_false] at hf ⊢
        exact callFn_2 hp t hf
      | pair _ => simp [callVal, hc] at hf
      | base _ => simp [callVal] at hf
      | null => simp [callVal] at hf
      | data _ _ => simp [callVal] at hf
  | closureNew f conv ty => exact absurd rfl (h1 f conv ty)
  | constant f =>
    cases h with
    | nil => exact .val (.fn f)
    | cons _ _ => exact .err _

/-! ## Calls -/

theorem looks_insertAt {env : Env B} {x : Var} {w : Val B} (hx : look env x = some w) : ∀ {i : Nat} {args : List Var}
    {ws : List (Val B)}, looks env args = some ws → looks env (insertAt i x args) = some (insertAt i w ws) := by
  intro i
  induction i with
  | zero => intro args ws h; simp [insertAt, looks, hx, h]
  | succ i ih =>
    intro args ws h
    cases args with
    | nil => cases h; simp [insertAt, looks, hx]
    | cons a as =>
      simp only [looks] at h
      cases ha : look env a with
      | none => rw [ha] at h; cases h
      | some v =>
        cases has : looks env as with
        | none => rw [ha, has] at h; cases h
        | some vs =>
          rw [ha, has] at h
          cases h
          simp [insertAt, looks, ha, ih has]

theorem v2s_insertAt {v w : Val B} (hv : V2 v w) : ∀ {i : Nat} {vs ws : List (Val B)}, V2s vs ws →
    V2s (insertAt i v vs) (insertAt i w ws) := by
  intro i
  induction i with
  | zero => intro vs ws h; exact .cons hv h
  | succ i ih =>
    intro vs ws h
    cases h with
    | nil => exact .cons hv .nil
    | cons a t => exact .cons a (ih t)

theorem withEnv_eq {c : Conv} {i : Nat} {ev env : Val B} {vs us : List (Val B)} (h : withEnv (.at c i) ev env vs = some us) :
    us = insertAt i env vs := by
  simp only [withEnv] at h
  split at h
  · next hi => cases h; exact insertAt_eq hi
  · cases h

/-- The operands of a lowered call. -/
def physArgs (slot : Slot) (ev env : Var) (args : List Var) : List Var :=
  match slot with
  | .legacy => ev :: env :: args
  | .at _ i => insertAt i env args

theorem callArgs_marked {conv : Option Conv} {site : Site} {args : List Var} {ev env : Var}
    (h : CallsMarked.SiteMarked conv site args.length) {slot : Slot} (hs : contract conv site.ty = some slot) :
    callArgs conv site ev env args = some (physArgs slot ev env args) := by
  obtain ⟨slot', h1, h2⟩ := h
  rw [hs] at h1; cases h1
  unfold callArgs
  rw [slotOf_eq, hs]
  cases slot with
  | legacy => rfl
  | «at» c i =>
    obtain ⟨h3, h4⟩ := h2 c i rfl
    simp only [physArgs]
    cases hp : site.ty.prov.isSome with
    | true =>
      rw [hp] at h4
      simp only [if_true] at h4 ⊢
      rw [if_neg]
      omega
    | false =>
      rw [hp] at h4
      simp only [Bool.false_eq_true, if_false] at h4 ⊢
      rw [if_neg]
      cases c <;> exact Nat.not_lt.mpr h4

def physVals (slot : Slot) (ev env : Val B) (ws : List (Val B)) : List (Val B) :=
  match slot with
  | .legacy => ev :: env :: ws
  | .at _ i => insertAt i env ws

/-- What a call does on both sides, once the fields of the pair are read. -/
theorem call_2 (S : Sem B σ) {p q : Prog} (hp : P2 p q) {ev ev' : Option (Val B)} {conv : Option Conv} {site : Site}
    {slot : Slot} (hs : contract conv site.ty = some slot) {s : σ} {x x' : Val B} {vs ws : List (Val B)} (hx : V2 x x')
    (hc : site.isClosure = true) (hev : V2 (ev.getD .null) (ev'.getD .null)) (h : V2s vs ws) :
    act S p ev s (.callInd conv site) (x :: vs) = .err ∨
    ∃ f w, x' = .data [.fn f, w] ∧
      A2 (act S p ev s (.callInd conv site) (x :: vs)) (act S q ev' s (.callInd conv pointer)
        (.fn f :: physVals slot (ev'.getD .null) w ws)) := by
  cases hx with
  | base _ => left; simp [act, callVal, Act.ofFrame]
  | null => left; simp [act, callVal, Act.ofFrame]
  | fn f => left; simp [act, callVal, hc, Act.ofFrame]
  | data _ _ => left; simp [act, callVal, Act.ofFrame]
  | @pair f v w slot' hv =>
    right
    refine ⟨f, w, rfl, ofFrame_2 ?_⟩
    intro fr hf
    simp only [callVal, hc, true_and, hs, Option.some.injEq] at hf
    split at hf
    · next he =>
      subst he
      simp only [callVal, pointer, Bool.false_eq_true, if_false]
      cases slot with
      | legacy =>
        simp only [withEnv, Option.bind_some] at hf
        exact callFn_2 hp (.cons hev (.cons hv h)) hf
      | «at» c i =>
        cases hu : withEnv (.at c i) (ev.getD .null) v vs with
        | none => rw [hu] at hf; cases hf
        | some us =>
          rw [hu] at hf
          rw [withEnv_eq hu] at hf
          exact callFn_2 hp (v2s_insertAt hv h) hf
    · cases hf

theorem getD_2 {ev ev' : Option (Val B)} (h : O2 ev ev') : V2 (ev.getD .null) (ev'.getD .null) := by
  cases ev with
  | none => cases ev' with
    | none => exact .null
    | some _ => cases h
  | some v => cases ev' with
    | none => cases h
    | some w => exact h

/-- Reading the two fields of a pair. -/
theorem eval_fields (S : Sem B σ) (q : Prog) (enter) (E : Option Var) (ev : Option (Val B)) {n c : Var} {k : Code}
    {env : Env B} {f : Sym} {w : Val B} {s : σ} (hc : look env c = some (.data [.fn f, w])) (hn : n ≠ c) :
    eval S q enter E ev (.op n (.get 0) [c] (.op (n + 1) (.get 1) [c] k)) env s =
      eval S q enter E ev k ((n + 1, w) :: (n, .fn f) :: env) s := by
  simp [eval, looks, hc, act, Act.andThen, look, hn]

/-- Where the fields of something else are read, the lowered program may do anything: the first has failed. -/
theorem sim2 (S : Sem B σ) {p q : Prog} (hp : P2 p q) {enter enter' : Frame B → σ → Res B σ}
    (hent : ∀ fr fr' s, F2 fr fr' → R2 (enter fr s) (enter' fr' s)) :
    ∀ (c : Code) {E : Option Var} {ev ev' : Option (Val B)} {T : List Var} {n : Nat} {env env' : Env B} {s : σ},
    Scoped E T c → NoLambda c → CallsMarked c → Below n c → (∀ v ∈ T, v < n) → (∀ e, E = some e → e ∈ T) →
    E2 T env env' → O2 ev ev' → ev' = E.bind (look env') →
    R2 (eval S p enter E ev c env s) (eval S q enter' E ev' (lowerCalls E n c).1 env' s)
  | .ret x, E, ev, ev', T, n, env, env', s, hs, _, _, _, _, _, hE, _, _ => by
    obtain ⟨y, y', h1, h2, h3⟩ := hE x hs
    simp only [lowerCalls, eval, h1, h2]
    exact .ok h3
  | .tail conv site args, E, ev, ev', T, n, env, env', s, hs, _, hm, hb, hn, hET, hE, hev, hlk => by
    obtain ⟨hne, hcl, hmk⟩ := hm
    cases args with
    | nil => exact absurd rfl hne
    | cons c args =>
      obtain ⟨x, x', g1, g2, g3⟩ := hE c (hs c (by simp))
      obtain ⟨vs, ws, a1, a2, a3⟩ := hE.looks (args := args) (fun a ha => hs a (by simp [ha]))
      cases hc : site.isClosure with
      | false =>
        have : ¬ (conv = some .cps ∧ site.ty.prov.isSome = true) := by rw [← hcl, hc]; simp
        simp only [lowerCalls, lowerTail, this, if_false, Option.getD_none]
        simp only [eval, looks, g1, g2, a1, a2]
        refine (act_2 S hp (.cons g3 a3) (by simp) ?_).andThen hent (fun s v w h => .ok h)
        intro conv' site' e; cases e; exact hc
      | true =>
        obtain ⟨hcps, hsm⟩ := hmk hc
        subst hcps
        have hsm' : CallsMarked.SiteMarked (some .cps) site args.length := by simpa using hsm
        have hsm2 := hsm'
        obtain ⟨slot, hslot, _⟩ := hsm2
        have hpv : site.ty.prov.isSome = true := by rw [← hcl, hc]
        have hnl : ∃ c i, slot = .at c i := by
          cases slot with
          | «at» c i => exact ⟨c, i, rfl⟩
          | legacy =>
            exfalso
            unfold contract at hslot
            cases hpr : site.ty.prov with
            | none => rw [hpr] at hpv; simp at hpv
            | some p =>
              rw [hpr] at hslot
              cases hix : site.ty.index with
              | none => rw [hix] at hslot; simp at hslot
              | some i => rw [hix] at hslot; simp at hslot
        obtain ⟨cc, ii, rfl⟩ := hnl
        simp only [lowerCalls, lowerTail, hpv, and_self, if_true, callArgs_marked hsm' hslot, Option.map_some, Option.getD_some]
        have hlhs : eval S p enter E ev (.tail (some .cps) site (c :: args)) env s =
            (act S p ev s (.callInd (some .cps) site) (x :: vs)).andThen enter s .ok := by simp [eval, looks, g1, a1]
        rw [hlhs]
        rcases call_2 S hp (conv := some .cps) (s := s) hslot g3 hc (getD_2 hev) a3 with h | ⟨f, w, rfl, h⟩
        · rw [h]; exact .err _
        · have hcn : (n : Var) ≠ c := by have := hb c (by simp); vomega
          rw [eval_fields S q enter' E ev' g2 hcn]
          have hfn : look ((n + 1, w) :: (n, Val.fn f) :: env') n = some (.fn f) := by simp [look]
          have hw : look ((n + 1, w) :: (n, Val.fn f) :: env') (n + 1) = some w := by simp [look]
          have hE1 : E2 T env ((n + 1, w) :: (n, Val.fn f) :: env') :=
            (hE.fresh (fun h => Nat.lt_irrefl _ (hn _ h))).fresh (fun h => by have := hn _ h; vomega)
          obtain ⟨vs', ws', b1, b2, b3⟩ := hE1.looks (args := args) (fun a ha => hs a (by simp [ha]))
          have hws : ws' = ws := by
            have hold : looks ((n + 1, w) :: (n, Val.fn f) :: env') args = some ws := by
              exact (looks_fresh (looks_fresh a2 (fun a ha => by have := hb a (by simp [ha]); vomega))
                (fun a ha => by have := hb a (by simp [ha]); vomega))
            rw [hold] at b2; exact (Option.some.inj b2).symm
          subst hws
          simp only [eval, physArgs, looks, hfn, looks_insertAt hw b2]
          exact h.andThen hent (fun s v w h => .ok h)
  | .op r o args k, E, ev, ev', T, n, env, env', s, hs, hl, hm, hb, hn, hET, hE, hev, hlk => by
    obtain ⟨ha, hr, hk⟩ := hs
    obtain ⟨hm1, hm2⟩ := hm
    obtain ⟨hb1, hb2, hb3⟩ := hb
    obtain ⟨vs, ws, a1, a2, a3⟩ := hE.looks ha
    -- going on after the operation
    have hk' : ∀ {n' : Nat} {env'' : Env B}, n ≤ n' → (∀ v ∈ T, look env'' v = look env' v) → ∀ (s : σ) (v w : Val B), V2 v w →
        R2 (eval S p enter E ev k ((r, v) :: env) s) (eval S q enter' E ev' (lowerCalls E n' k).1 ((r, w) :: env'') s) := by
      intro n' env'' hnn hagree s v w hv
      refine sim2 S hp hent k hk hl hm2 (below_mono hnn _ hb3) ?_ (fun e he => by simp [hET e he]) (E2.cons ?_ hv) hev ?_
      · intro y hy
        rcases List.mem_cons.mp hy with e | hy
        · vomega
        · have := hn y hy; vomega
      · intro y hy
        obtain ⟨z, z', h1, h2, h3⟩ := hE y hy
        exact ⟨z, z', h1, by rw [hagree y hy, h2], h3⟩
      · rw [hlk]
        cases hEE : E with
        | none => rfl
        | some e =>
          have heT := hET e hEE
          have : r ≠ e := fun h => hr (h ▸ heT)
          simp only [Option.bind_some, look, this, if_false]
          rw [hagree e heT]
    have hsame : (∀ f conv ty, o ≠ .closureNew f conv ty) → (∀ conv site, o = .callInd conv site → site.isClosure = false) →
        R2 (eval S p enter E ev (.op r o args k) env s) (eval S q enter' E ev' (.op r o args (lowerCalls E n k).1) env' s) := by
      intro h1 h2
      simp only [eval, a1, a2]
      exact (act_2 S hp a3 h1 h2).andThen hent (hk' (Nat.le_refl _) (fun _ _ => rfl))
    cases o with
    | callInd conv site =>
      obtain ⟨hne, hcl, hmk⟩ := hm1 conv site rfl
      cases args with
      | nil => exact absurd rfl hne
      | cons c args =>
        cases hc : site.isClosure with
        | false =>
          have : lowerCall E n r conv site (c :: args) = none := by simp [lowerCall, hc]
          simp only [lowerCalls, this]
          exact hsame (by simp) (fun conv' site' e => by cases e; exact hc)
        | true =>
          have hsm' : CallsMarked.SiteMarked conv site args.length := by simpa using hmk hc
          have hsm2 := hsm'
          obtain ⟨slot, hslot, _⟩ := hsm2
          obtain ⟨x, x', g1, g2, g3⟩ := hE c (ha c (by simp))
          obtain ⟨vs, ws, a1, a2, a3⟩ := hE.looks (args := args) (fun a h => ha a (by simp [h]))
          have hlhs : eval S p enter E ev (.op r (.callInd conv site) (c :: args) k) env s =
              (act S p ev s (.callInd conv site) (x :: vs)).andThen enter s
                (fun s' v => eval S p enter E ev k ((r, v) :: env) s') := by simp [eval, looks, g1, a1]
          rw [hlhs]
          have hcall := call_2 S hp (s := s) hslot g3 hc (getD_2 hev) a3
          rcases hcall with h | ⟨f, w, rfl, h⟩
          · rw [h]; exact .err _
          -- the call, in a scope with the fields of the pair
          have key : ∀ {env₀ : Env B} {e : Var} {n' : Nat}, n + 2 ≤ n' →
              look env₀ c = some (.data [.fn f, w]) → (∀ v ∈ T, look env₀ v = look env' v) →
              looks env₀ args = some ws →
              (slot = .legacy → look env₀ e = some (ev'.getD .null) ∧ e ≠ n ∧ e ≠ n + 1) →
              R2 ((act S p ev s (.callInd conv site) (x :: vs)).andThen enter s
                (fun s' v => eval S p enter E ev k ((r, v) :: env) s'))
                (eval S q enter' E ev' (.op n (.get 0) [c] (.op (n + 1) (.get 1) [c]
                  (.op r (.callInd conv pointer) (n :: physArgs slot e (n + 1) args) (lowerCalls E n' k).1))) env₀ s) := by
            intro env₀ e n' hn' hc0 hag hlw hle
            have hcn : (n : Var) ≠ c := by have := hb1 c (by simp); vomega
            rw [eval_fields S q enter' E ev' hc0 hcn]
            have hfn : look ((n + 1, w) :: (n, Val.fn f) :: env₀) n = some (.fn f) := by simp [look]
            have hw : look ((n + 1, w) :: (n, Val.fn f) :: env₀) (n + 1) = some w := by simp [look]
            have hlw2 : looks ((n + 1, w) :: (n, Val.fn f) :: env₀) args = some ws :=
              looks_fresh (looks_fresh hlw (fun a h => by have := hb1 a (by simp [h]); vomega))
                (fun a h => by have := hb1 a (by simp [h]); vomega)
            have hargs : looks ((n + 1, w) :: (n, Val.fn f) :: env₀) (n :: physArgs slot e (n + 1) args) =
                some (.fn f :: physVals slot (ev'.getD .null) w ws) := by
              cases slot with
              | legacy =>
                obtain ⟨h1, h2, h3⟩ := hle rfl
                have : look ((n + 1, w) :: (n, Val.fn f) :: env₀) e = some (ev'.getD .null) := by
                  simp [look, Ne.symm h2, Ne.symm h3, h1]
                simp [physArgs, physVals, looks, this, hfn, hw, hlw2]
              | «at» cc i =>
                simp [physArgs, physVals, looks, hfn, looks_insertAt hw hlw2]
            simp only [eval, hargs]
            refine h.andThen hent ?_
            refine hk' (by omega) ?_
            intro v hv
            have := hn v hv
            have h1 : (n + 1 : Var) ≠ v := by vomega
            have h2 : (n : Var) ≠ v := by vomega
            simp only [look, h1, h2, if_false]
            exact hag v hv
          cases hEE : E with
          | some e =>
            have heT := hET e hEE
            have hen := hn e heT
            have : lowerCall (some e) n r conv site (c :: args) = some (fun k => .op n (.get 0) [c] (.op (n + 1) (.get 1) [c]
                (.op r (.callInd conv pointer) (n :: physArgs slot e (n + 1) args) k)), n + 2) := by
              simp only [lowerCall, hc, if_true, callArgs_marked hsm' hslot, Option.map_some]
            simp only [lowerCalls, this]
            rw [← hEE]
            refine key (e := e) (Nat.le_refl _) g2 (fun _ _ => rfl) a2 (fun _ => ⟨?_, by vomega, by vomega⟩)
            obtain ⟨y, y', z1, z2, z3⟩ := hE e heT
            rw [hlk, hEE]
            simp [z2]
          | none =>
            have hev0 : ev' = none := by rw [hlk, hEE]; rfl
            by_cases hleg : slot = .legacy
            · subst hleg
              have : lowerCall none n r conv site (c :: args) = some (fun k => .op (n + 2) .null [] (.op n (.get 0) [c] (.op (n + 1) (.get 1) [c]
                  (.op r (.callInd conv pointer) (n :: physArgs .legacy (n + 2) (n + 1) args) k))), n + 3) := by
                simp only [lowerCall, hc, if_true, slotOf_eq, hslot, callArgs_marked hsm' hslot, Option.map_some]
              simp only [lowerCalls, this]
              rw [← hEE]
              have hstep : ∀ K, eval S q enter' E ev' (.op (n + 2) .null [] K) env' s = eval S q enter' E ev' K ((n + 2, .null) :: env') s := by
                intro K; simp [eval, looks, act, Act.andThen]
              rw [hstep]
              refine key (e := n + 2) (by omega) ?_ ?_ ?_ (fun _ => ⟨?_, by vomega, by vomega⟩)
              · have h1 : (n + 2 : Var) ≠ c := by have := hb1 c (by simp); vomega
                simp [look, h1, g2]
              · intro v hv
                have := hn v hv
                have h1 : (n + 2 : Var) ≠ v := by vomega
                simp [look, h1]
              · exact looks_fresh a2 (fun a h => by have := hb1 a (by simp [h]); vomega)
              · simp [look, hev0]
            · have : lowerCall none n r conv site (c :: args) = some (fun k => .op n (.get 0) [c] (.op (n + 1) (.get 1) [c]
                  (.op r (.callInd conv pointer) (n :: physArgs slot 0 (n + 1) args) k)), n + 2) := by
                have hs2 : slotOf conv site.ty ≠ some .legacy := by rw [slotOf_eq, hslot]; simpa using hleg
                simp only [lowerCall, hc, if_true, hs2, if_false, callArgs_marked hsm' hslot, Option.map_some]
              simp only [lowerCalls, this]
              rw [← hEE]
              exact key (e := 0) (Nat.le_refl _) g2 (fun _ _ => rfl) a2 (fun h => absurd h hleg)
    | closureNew f conv ty =>
      simp only [lowerCalls, eval, looks, a1]
      have hstep : act S q ev' s (.constant f) ([] : List (Val B)) = .val s (.fn f) := rfl
      rw [hstep]
      simp only [Act.andThen]
      have hl2 : looks ((n, Val.fn f) :: env') args = some ws := looks_fresh a2 (fun a h => by have := hb1 a h; vomega)
      simp only [looks, look, if_true, hl2]
      cases a3 with
      | nil => simp only [act]; exact .err _
      | cons h1 h2 =>
        cases h2 with
        | cons _ _ => simp only [act]; exact .err _
        | nil =>
          simp only [act]
          cases hcon : contract conv ty with
          | none => exact .err _
          | some slot =>
            simp only
            refine hk' (by omega) ?_ s _ _ (.pair h1)
            intro v hv
            have := hn v hv
            have h2 : (n : Var) ≠ v := by vomega
            simp [look, h2]
    | prim _ => exact hsame (by simp) (by simp)
    | pack => exact hsame (by simp) (by simp)
    | get _ => exact hsame (by simp) (by simp)
    | null => exact hsame (by simp) (by simp)
    | cast => exact hsame (by simp) (by simp)
    | call _ => exact hsame (by simp) (by simp)
    | constant _ => exact hsame (by simp) (by simp)
  | .cond r c t e k, E, ev, ev', T, n, env, env', s, hs, hl, hm, hb, hn, hET, hE, hev, hlk => by
    obtain ⟨hc, ht, he, hr, hk⟩ := hs
    obtain ⟨hm1, hm2, hm3⟩ := hm
    obtain ⟨hl1, hl2, hl3⟩ := hl
    obtain ⟨hb1, hbt, hbe, hb2, hb3⟩ := hb
    obtain ⟨x, x', g1, g2, g3⟩ := hE c hc
    have m1 := lowerCalls_mono t E n
    have m2 := lowerCalls_mono e E (lowerCalls E n t).2
    simp only [lowerCalls, eval, g1, g2]
    cases g3 with
    | base b =>
      simp only
      refine R2.andThen ?_ ?_
      · split
        · exact sim2 S hp hent t ht hl1 hm1 hbt hn hET hE hev hlk
        · exact sim2 S hp hent e he hl2 hm2 (below_mono m1 _ hbe) (fun v hv => Nat.lt_of_lt_of_le (hn v hv) m1) hET hE hev hlk
      · intro s v w hv
        refine sim2 S hp hent k hk hl3 hm3 (below_mono (by omega) _ hb3) ?_ (fun e he => by simp [hET e he]) (hE.cons hv) hev ?_
        · intro y hy
          rcases List.mem_cons.mp hy with e | hy
          · vomega
          · have := hn y hy; vomega
        · rw [hlk]
          cases hEE : E with
          | none => rfl
          | some e =>
            have : r ≠ e := fun h => hr (h ▸ hET e hEE)
            simp only [Option.bind_some, look, this, if_false]
    | null => exact .err _
    | fn _ => exact .err _
    | data _ _ => exact .err _
    | pair _ => exact .err _
  | .lambda _ _ _ _ _ _ _, _, _, _, _, _, _, _, _, _, hl, _, _, _, _, _, _, _ => absurd hl (by simp [NoLambda])
where
  looks_fresh {env : Env B} {x : Var} {v : Val B} : ∀ {args : List Var} {ws : List (Val B)}, looks env args = some ws →
      (∀ a ∈ args, x ≠ a) → looks ((x, v) :: env) args = some ws
    | [], ws, h, _ => h
    | a :: as, ws, h, hx => by
      simp only [looks] at h ⊢
      have h1 : x ≠ a := hx a (by simp)
      simp only [look, h1, if_false]
      cases ha : look env a with
      | none => rw [ha] at h; cases h
      | some y =>
        cases has : looks env as with
        | none => rw [ha, has] at h; cases h
        | some ys =>
          rw [looks_fresh has (fun b hb => hx b (by simp [hb]))]
          rw [ha, has] at h
          exact h
  lowerCalls_mono : ∀ (c : Code) (E : Option Var) (n : Nat), n ≤ (lowerCalls E n c).2
    | .ret _, _, _ => Nat.le_refl _
    | .tail conv site args, E, n => by
      simp only [lowerCalls]
      cases args with
      | nil => exact Nat.le_refl _
      | cons c args =>
        simp only [lowerTail]
        split
        · cases callArgs conv site 0 (n + 1) args with
          | none => exact Nat.le_refl _
          | some _ => simp
        · exact Nat.le_refl _
    | .op r o args k, E, n => by
      cases o with
      | callInd conv site =>
        simp only [lowerCalls]
        cases h : lowerCall E n r conv site args with
        | none => simp only; exact lowerCalls_mono k E n
        | some x =>
          simp only
          have hx : n ≤ x.2 := by
            cases args with
            | nil => cases h
            | cons c args =>
              simp only [lowerCall] at h
              split at h
              · cases E with
                | some e =>
                  simp only [Option.map_eq_some_iff] at h
                  obtain ⟨_, _, rfl⟩ := h
                  simp
                | none =>
                  simp only at h
                  split at h
                  · simp only [Option.map_eq_some_iff] at h
                    obtain ⟨_, _, rfl⟩ := h
                    simp
                  · simp only [Option.map_eq_some_iff] at h
                    obtain ⟨_, _, rfl⟩ := h
                    simp
              · cases h
          exact Nat.le_trans hx (lowerCalls_mono k E x.2)
      | closureNew f conv ty => simp only [lowerCalls]; exact Nat.le_trans (by omega) (lowerCalls_mono k E (n + 1))
      | prim _ => exact lowerCalls_mono k E n
      | pack => exact lowerCalls_mono k E n
      | get _ => exact lowerCalls_mono k E n
      | null => exact lowerCalls_mono k E n
      | cast => exact lowerCalls_mono k E n
      | call _ => exact lowerCalls_mono k E n
      | constant _ => exact lowerCalls_mono k E n
    | .cond _ _ t e k, E, n => by
      simp only [lowerCalls]
      exact Nat.le_trans (Nat.le_trans (lowerCalls_mono t E n) (lowerCalls_mono e E _)) (lowerCalls_mono k E _)
    | .lambda _ _ _ _ _ _ k, E, n => lowerCalls_mono k E n

end Verif.Closure
