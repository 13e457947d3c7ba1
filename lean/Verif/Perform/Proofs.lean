import Verif.Perform.Spec

namespace Verif.Perform

variable {V W : Type}

theorem le_foldr {x : Nat} {l : List Nat} (h : x ∈ l) : x ≤ l.foldr max 0 := by
  induction l with
  | nil => cases h
  | cons y l ih =>
    simp only [List.foldr_cons]
    rcases List.mem_cons.1 h with rfl | h
    · omega
    · have := ih h; omega

theorem map_agree {env env' : Nat → V} {n : Nat} {l : List Nat} (h : ∀ x < n, env' x = env x)
    (hl : l.foldr max 0 < n) : l.map env' = l.map env := by
  apply List.map_congr_left
  intro x hx
  have := le_foldr hx
  exact h x (by omega)

mutual
/-- Values that are not defined keep their meaning. -/
theorem exec_frame (I : Interp V W) (ev : V) (ret : Ty) (top : Bool) : ∀ (op : Op) (env : Nat → V)
    (w : W) (env₁ : Nat → V) (w₁ : W), exec I ev ret top op env w = .next env₁ w₁ →
    ∀ x ∉ op.defs, env₁ x = env x := by
  intro op env w env₁ w₁ h x hx
  cases op with
  | prim f args r =>
    simp only [exec, Out.next.injEq] at h
    obtain ⟨rfl, -⟩ := h
    simp only [Op.defs, List.mem_singleton] at hx
    simp [set, hx]
  | ite c t e r =>
    simp only [exec] at h
    have hr : x ≠ r := fun hr => hx (by simp [Op.defs, hr])
    cases hm : (if I.truth (env c) then execs I ev ret false t env w
      else execs I ev ret false e env w) with
    | yielded v w' =>
      rw [hm] at h
      simp only [Out.next.injEq] at h
      obtain ⟨rfl, -⟩ := h
      simp [set, hr]
    | next a b => rw [hm] at h; cases h
    | returned a b => rw [hm] at h; cases h
    | stuck => rw [hm] at h; cases h
  | yield v => simp [exec] at h
  | ret vs => simp [exec] at h
  | perform l a o k args r =>
    simp only [exec] at h
    simp only [Op.defs, List.mem_singleton] at hx
    split at h
    · cases h
    · split at h
      · cases h
      · simp only [Out.next.injEq] at h
        obtain ⟨rfl, -⟩ := h
        simp [set, hx]
  | call l a o args r =>
    simp only [exec] at h
    simp only [Op.defs, List.mem_singleton] at hx
    split at h
    · cases h
    · simp only [Out.next.injEq] at h
      obtain ⟨rfl, -⟩ := h
      simp [set, hx]
  | structNew a o args r =>
    simp only [exec, Out.next.injEq] at h
    obtain ⟨rfl, -⟩ := h
    simp only [Op.defs, List.mem_singleton] at hx
    simp [set, hx]
  | refNull r =>
    simp only [exec, Out.next.injEq] at h
    obtain ⟨rfl, -⟩ := h
    simp only [Op.defs, List.mem_singleton] at hx
    simp [set, hx]
  | cast v ty r =>
    simp only [exec, Out.next.injEq] at h
    obtain ⟨rfl, -⟩ := h
    simp only [Op.defs, List.mem_singleton] at hx
    simp [set, hx]
  | dispatchCps a o x' k p r =>
    simp only [exec, Out.next.injEq] at h
    obtain ⟨rfl, -⟩ := h
    simp only [Op.defs, List.mem_singleton] at hx
    simp [set, hx]
  | dispatchTail a o x' p r =>
    simp only [exec, Out.next.injEq] at h
    obtain ⟨rfl, -⟩ := h
    simp only [Op.defs, List.mem_singleton] at hx
    simp [set, hx]
end

/-- Ends that are the same for values below `n`. -/
inductive Same (n : Nat) : Out V W → Out V W → Prop
  | next (env env' : Nat → V) (w : W) : (∀ x < n, env' x = env x) →
      Same n (.next env w) (.next env' w)
  | yielded (v w) : Same n (.yielded v w) (.yielded v w)
  | returned (vs w) : Same n (.returned vs w) (.returned vs w)
  | stuck : Same n .stuck .stuck

theorem set_agree {env env' : Nat → V} {n r : Nat} {v : V} (h : ∀ x < n, env' x = env x) :
    ∀ x < n, set env' r v x = set env r v x := by
  intro x hx
  simp only [set]
  split
  · rfl
  · exact h x hx

theorem execs_append (I : Interp V W) (ev : V) (ret : Ty) (top : Bool) (l l' : List Op)
    (env : Nat → V) (w : W) :
    execs I ev ret top (l ++ l') env w = match execs I ev ret top l env w with
      | .next env w => execs I ev ret top l' env w
      | .yielded v w => .yielded v w
      | .returned vs w => .returned vs w
      | .stuck => .stuck := by
  induction l generalizing env w with
  | nil => simp [execs]
  | cons o l ih =>
    simp only [List.cons_append, execs]
    cases exec I ev ret top o env w with
    | next a b => exact ih a b
    | yielded a b => rfl
    | returned a b => rfl
    | stuck => rfl

theorem pack_exec (I : Interp V W) (evv : V) (ret : Ty) (top : Bool) {legacy : Bool} {a o : Nat}
    {args : List Nat} {n : Nat} {ops : List Op} {p n₁ : Nat}
    (h : pack legacy a o args n = some (ops, p, n₁)) (env' : Nat → V) (w : W)
    (hargs : args.foldr max 0 < n) :
    n < n₁ ∧ n ≤ p ∧ p < n₁ ∧ ∃ env₂ : Nat → V, ∃ pv,
      payloadOf I legacy a o (args.map env') = some pv ∧
      execs I evv ret top ops env' w = .next env₂ w ∧ env₂ p = pv ∧ ∀ x < n, env₂ x = env' x := by
  cases legacy with
  | false =>
    simp only [pack, packPayload, Bool.false_eq_true, if_false, Option.some.injEq, Prod.mk.injEq] at h
    obtain ⟨rfl, rfl, rfl⟩ := h
    refine ⟨by omega, by omega, by omega, set (set env' n (I.product a o (args.map env'))) (n + 1)
      (set env' n (I.product a o (args.map env')) n), I.product a o (args.map env'), rfl,
      by simp only [execs, exec], by simp [set], ?_⟩
    intro x hx
    have h1 : x ≠ n := by omega
    have h2 : x ≠ n + 1 := by omega
    simp [set, h1, h2]
  | true =>
    simp only [pack, if_true] at h
    unfold packLegacy at h
    split at h
    · simp only [Option.some.injEq, Prod.mk.injEq] at h
      obtain ⟨rfl, rfl, rfl⟩ := h
      refine ⟨by omega, by omega, by omega, set env' n I.null, I.null, rfl, by simp only [execs, exec],
        by simp [set], ?_⟩
      intro x hx
      have h1 : x ≠ n := by omega
      simp [set, h1]
    · next v =>
      simp only [Option.some.injEq, Prod.mk.injEq] at h
      obtain ⟨rfl, rfl, rfl⟩ := h
      refine ⟨by omega, by omega, by omega, set env' n (env' v), env' v, rfl, by simp only [execs, exec],
        by simp [set], ?_⟩
      intro x hx
      have h1 : x ≠ n := by omega
      simp [set, h1]
    · cases h

/-- An operation that is kept. -/
theorem exec_agree (I : Interp V W) (evv : V) (ret : Ty) (top : Bool) (n₀ : Nat) (op : Op)
    (hb : op.bound ≤ n₀) (hite : ∀ c t e r, op ≠ .ite c t e r)
    (env env' : Nat → V) (w : W) (h : ∀ x < n₀, env' x = env x) :
    Same n₀ (exec I evv ret top op env w) (exec I evv ret top op env' w) := by
  cases op with
  | prim f args r =>
    simp only [Op.bound, List.foldr_cons] at hb
    simp only [exec]
    rw [map_agree h (by omega)]
    exact .next _ _ _ (set_agree h)
  | ite c t e r => exact absurd rfl (hite c t e r)
  | yield v =>
    simp only [Op.bound] at hb
    simp only [exec]
    rw [h v (by omega)]
    exact .yielded _ _
  | ret vs =>
    simp only [Op.bound] at hb
    simp only [exec]
    rw [map_agree h (by omega)]
    exact .returned _ _
  | perform l a o k args r =>
    simp only [Op.bound, List.foldr_cons] at hb
    simp only [exec]
    rw [map_agree h (by omega), h k (by omega)]
    split
    · exact .stuck
    · split
      · exact .returned _ _
      · exact .next _ _ _ (set_agree h)
  | call l a o args r =>
    simp only [Op.bound, List.foldr_cons] at hb
    simp only [exec]
    rw [map_agree h (by omega)]
    split
    · exact .stuck
    · exact .next _ _ _ (set_agree h)
  | structNew a o args r =>
    simp only [Op.bound, List.foldr_cons] at hb
    simp only [exec]
    rw [map_agree h (by omega)]
    exact .next _ _ _ (set_agree h)
  | refNull r => exact .next _ _ _ (set_agree h)
  | cast v ty r =>
    simp only [Op.bound] at hb
    simp only [exec]
    rw [h v (by omega)]
    exact .next _ _ _ (set_agree h)
  | dispatchCps a o x k p r =>
    simp only [Op.bound] at hb
    simp only [exec]
    rw [h x (by omega), h k (by omega), h p (by omega)]
    exact .next _ _ _ (set_agree h)
  | dispatchTail a o x p r =>
    simp only [Op.bound] at hb
    simp only [exec]
    rw [h x (by omega), h p (by omega)]
    exact .next _ _ _ (set_agree h)

theorem execs_single (I : Interp V W) (evv : V) (ret : Ty) (top : Bool) (op : Op) (env : Nat → V)
    (w : W) : execs I evv ret top [op] env w = exec I evv ret top op env w := by
  simp only [execs]
  cases exec I evv ret top op env w <;> rfl

/-- What is known of a lowered operation. -/
def OpOk (I : Interp V W) (ev : Nat) (ret : Ty) (top : Bool) (n₀ n : Nat) (op : Op) (l : List Op)
    (stop : Bool) (n' : Nat) : Prop :=
  n ≤ n' ∧ ∀ (env env' : Nat → V) (w : W), (∀ x < n₀, env' x = env x) →
    Same n₀ (exec I (env ev) ret top op env w) (execs I (env ev) ret top l env' w) ∧
    (stop = true → ∃ vs w', exec I (env ev) ret top op env w = .returned vs w')

theorem kept_ok (I : Interp V W) (ev : Nat) (ret : Ty) (top : Bool) (n₀ n : Nat) (op : Op)
    (hb : op.bound ≤ n₀) (hite : ∀ c t e r, op ≠ .ite c t e r) :
    OpOk I ev ret top n₀ n op [op] false n := by
  refine ⟨Nat.le_refl _, fun env env' w h => ⟨?_, fun h => by cases h⟩⟩
  rw [execs_single]
  exact exec_agree I _ ret top n₀ op hb hite env env' w h

mutual
theorem lowerOp_ok (I : Interp V W) (ev : Nat) (ret : Ty) (n₀ : Nat) (hev : ev < n₀) :
    ∀ (op : Op) (top : Bool) (n : Nat) (l : List Op) (stop : Bool) (n' : Nat), op.bound ≤ n₀ →
    n₀ ≤ n → ev ∉ op.defs → lowerOp ev ret top op n = some (l, stop, n') →
    OpOk I ev ret top n₀ n op l stop n'
  | .prim f args r, top, n, l, stop, n', hb, hn, hd, h => by
    simp only [lowerOp, Option.some.injEq, Prod.mk.injEq] at h
    obtain ⟨rfl, rfl, rfl⟩ := h
    exact kept_ok I ev ret top n₀ n _ hb (fun _ _ _ _ h => by cases h)
  | .yield v, top, n, l, stop, n', hb, hn, hd, h => by
    simp only [lowerOp, Option.some.injEq, Prod.mk.injEq] at h
    obtain ⟨rfl, rfl, rfl⟩ := h
    exact kept_ok I ev ret top n₀ n _ hb (fun _ _ _ _ h => by cases h)
  | .ret vs, top, n, l, stop, n', hb, hn, hd, h => by
    simp only [lowerOp, Option.some.injEq, Prod.mk.injEq] at h
    obtain ⟨rfl, rfl, rfl⟩ := h
    exact kept_ok I ev ret top n₀ n _ hb (fun _ _ _ _ h => by cases h)
  | .structNew a o args r, top, n, l, stop, n', hb, hn, hd, h => by
    simp only [lowerOp, Option.some.injEq, Prod.mk.injEq] at h
    obtain ⟨rfl, rfl, rfl⟩ := h
    exact kept_ok I ev ret top n₀ n _ hb (fun _ _ _ _ h => by cases h)
  | .refNull r, top, n, l, stop, n', hb, hn, hd, h => by
    simp only [lowerOp, Option.some.injEq, Prod.mk.injEq] at h
    obtain ⟨rfl, rfl, rfl⟩ := h
    exact kept_ok I ev ret top n₀ n _ hb (fun _ _ _ _ h => by cases h)
  | .cast v ty r, top, n, l, stop, n', hb, hn, hd, h => by
    simp only [lowerOp, Option.some.injEq, Prod.mk.injEq] at h
    obtain ⟨rfl, rfl, rfl⟩ := h
    exact kept_ok I ev ret top n₀ n _ hb (fun _ _ _ _ h => by cases h)
  | .dispatchCps a o x k p r, top, n, l, stop, n', hb, hn, hd, h => by
    simp only [lowerOp, Option.some.injEq, Prod.mk.injEq] at h
    obtain ⟨rfl, rfl, rfl⟩ := h
    exact kept_ok I ev ret top n₀ n _ hb (fun _ _ _ _ h => by cases h)
  | .dispatchTail a o x p r, top, n, l, stop, n', hb, hn, hd, h => by
    simp only [lowerOp, Option.some.injEq, Prod.mk.injEq] at h
    obtain ⟨rfl, rfl, rfl⟩ := h
    exact kept_ok I ev ret top n₀ n _ hb (fun _ _ _ _ h => by cases h)
  | .perform legacy a o k args r, top, n, l, stop, n', hb, hn, hd, h => by
    simp only [Op.bound, List.foldr_cons] at hb
    rw [lowerOp] at h
    cases hp : pack legacy a o args n with
    | none => rw [hp] at h; cases h
    | some q =>
      obtain ⟨ops, p, n₁⟩ := q
      rw [hp] at h
      simp only at h
      have hlt : ∀ env' : Nat → V, ∀ w : W, _ := fun env' w =>
        pack_exec I (env' ev) ret top hp env' w (by omega)
      have key : ∀ (evv : V) (env env' : Nat → V) (w : W), (∀ x < n₀, env' x = env x) →
          evv = env ev → ∃ pv, payloadOf I legacy a o (args.map env) = some pv ∧
          ∃ env₃ : Nat → V, (∀ x < n₀, env₃ x = set env r (I.cps evv a o (env k) pv w).1 x) ∧
            env₃ r = (I.cps evv a o (env k) pv w).1 ∧
            execs I evv ret top (ops ++ [.cast k .anyref n₁, .dispatchCps a o ev n₁ p r]) env' w =
              .next env₃ (I.cps evv a o (env k) pv w).2 := by
        intro evv env env' w hag he
        obtain ⟨h1, h2, h3, env₂, pv, h4, h5, h6, h7⟩ :=
          pack_exec I evv ret top hp env' w (by omega)
        rw [map_agree hag (by omega)] at h4
        refine ⟨pv, h4, ?_⟩
        rw [execs_append, h5]
        simp only [execs, exec]
        have e1 : set env₂ n₁ (env₂ k) ev = evv := by
          have : ev ≠ n₁ := by omega
          simp only [set, this, if_false]
          rw [h7 ev (by omega), hag ev hev, he]
        have e2 : set env₂ n₁ (env₂ k) n₁ = env k := by
          simp only [set, if_true]
          rw [h7 k (by omega), hag k (by omega)]
        have e3 : set env₂ n₁ (env₂ k) p = pv := by
          have : p ≠ n₁ := by omega
          simp only [set, this, if_false]
          exact h6
        rw [e1, e2, e3]
        refine ⟨_, ?_, ?_, rfl⟩
        · apply set_agree
          intro x hx
          have : x ≠ n₁ := by omega
          simp only [set, this, if_false]
          rw [h7 x (by omega), hag x hx]
        · simp [set]
      have hn₁ : n < n₁ := by
        cases legacy with
        | false =>
          simp only [pack, packPayload, Bool.false_eq_true, if_false, Option.some.injEq,
            Prod.mk.injEq] at hp
          omega
        | true =>
          simp only [pack, if_true] at hp
          unfold packLegacy at hp
          split at hp
          · simp only [Option.some.injEq, Prod.mk.injEq] at hp; omega
          · simp only [Option.some.injEq, Prod.mk.injEq] at hp; omega
          · cases hp
      cases top with
      | false =>
        simp only [Bool.false_eq_true, if_false, Option.some.injEq, Prod.mk.injEq] at h
        obtain ⟨rfl, rfl, rfl⟩ := h
        refine ⟨by omega, fun env env' w hag => ⟨?_, fun h => by cases h⟩⟩
        obtain ⟨pv, h1, env₃, h2, -, h3⟩ := key (env ev) env env' w hag rfl
        rw [h3]
        simp only [exec, h1, Bool.false_eq_true, if_false]
        exact .next _ _ _ h2
      | true =>
        simp only [if_true, Option.some.injEq, Prod.mk.injEq] at h
        obtain ⟨rfl, rfl, rfl⟩ := h
        refine ⟨?_, fun env env' w hag => ?_⟩
        · cases ret <;> simp only [returnOps] <;> omega
        obtain ⟨pv, h1, env₃, -, h2, h3⟩ := key (env ev) env env' w hag rfl
        rw [execs_append, h3]
        simp only [exec, h1, if_true]
        refine ⟨?_, fun _ => ⟨_, _, rfl⟩⟩
        cases ret with
        | nil =>
          simp only [returnOps, execs, exec, List.map_nil, if_true]
          exact .returned _ _
        | anyref =>
          simp only [returnOps, execs, exec, List.map_cons, List.map_nil, h2, reduceCtorEq, if_false]
          exact .returned _ _
        | other t =>
          simp only [returnOps, execs, exec, List.map_cons, List.map_nil, h2, reduceCtorEq, if_false,
            set, if_true]
          exact .returned _ _
  | .call legacy a o args r, top, n, l, stop, n', hb, hn, hd, h => by
    simp only [Op.bound, List.foldr_cons] at hb
    rw [lowerOp] at h
    cases hp : pack legacy a o args n with
    | none => rw [hp] at h; cases h
    | some q =>
      obtain ⟨ops, p, n₁⟩ := q
      rw [hp] at h
      simp only [Option.some.injEq, Prod.mk.injEq] at h
      obtain ⟨rfl, rfl, rfl⟩ := h
      refine ⟨?_, fun env env' w hag => ⟨?_, fun h => by cases h⟩⟩
      · cases legacy with
        | false =>
          simp only [pack, packPayload, Bool.false_eq_true, if_false, Option.some.injEq,
            Prod.mk.injEq] at hp
          omega
        | true =>
          simp only [pack, if_true] at hp
          unfold packLegacy at hp
          split at hp
          · simp only [Option.some.injEq, Prod.mk.injEq] at hp; omega
          · simp only [Option.some.injEq, Prod.mk.injEq] at hp; omega
          · cases hp
      · obtain ⟨h1, h2, h3, env₂, pv, h4, h5, h6, h7⟩ :=
          pack_exec I (env ev) ret top hp env' w (by omega)
        rw [map_agree hag (by omega)] at h4
        rw [execs_append, h5]
        simp only [exec, h4, execs, h6]
        rw [h7 ev (by omega), hag ev hev]
        refine .next _ _ _ (set_agree ?_)
        intro x hx
        rw [h7 x (by omega), hag x hx]
  | .ite c t e r, top, n, l, stop, n', hb, hn, hd, h => by
    have it := lowerOps_ok I ev ret n₀ hev t false n
    have ie := lowerOps_ok I ev ret n₀ hev e false
    simp only [Op.bound] at hb
    simp only [Op.defs, List.mem_cons, List.mem_append, not_or] at hd
    obtain ⟨-, hd1, hd2⟩ := hd
    rw [lowerOp] at h
    cases ht : lowerOps ev ret false t n with
    | none => rw [ht] at h; cases h
    | some q =>
      obtain ⟨t', n₁⟩ := q
      rw [ht] at h
      simp only at h
      cases he : lowerOps ev ret false e n₁ with
      | none => rw [he] at h; cases h
      | some q =>
        obtain ⟨e', n₂⟩ := q
        rw [he] at h
        simp only [Option.some.injEq, Prod.mk.injEq] at h
        obtain ⟨rfl, rfl, rfl⟩ := h
        obtain ⟨ht1, ht2⟩ := it t' n₁ (by omega) hn hd1 ht
        obtain ⟨he1, he2⟩ := ie n₁ e' n₂ (by omega) (by omega) hd2 he
        refine ⟨by omega, fun env env' w hag => ⟨?_, fun h => by cases h⟩⟩
        rw [execs_single]
        simp only [exec]
        rw [hag c (by omega)]
        have hs : Same n₀
            (if I.truth (env c) then execs I (env ev) ret false t env w
              else execs I (env ev) ret false e env w)
            (if I.truth (env c) then execs I (env ev) ret false t' env' w
              else execs I (env ev) ret false e' env' w) := by
          split
          · exact ht2 env env' w hag
          · exact he2 env env' w hag
        generalize (if I.truth (env c) then execs I (env ev) ret false t env w
          else execs I (env ev) ret false e env w) = o₁ at hs
        generalize (if I.truth (env c) then execs I (env ev) ret false t' env' w
          else execs I (env ev) ret false e' env' w) = o₂ at hs
        cases hs with
        | next a b w h => exact .stuck
        | yielded v w => exact .next _ _ _ (set_agree hag)
        | returned vs w => exact .returned _ _
        | stuck => exact .stuck
theorem lowerOps_ok (I : Interp V W) (ev : Nat) (ret : Ty) (n₀ : Nat) (hev : ev < n₀) :
    ∀ (ops : List Op) (top : Bool) (n : Nat) (l : List Op) (n' : Nat), opsBound ops ≤ n₀ →
    n₀ ≤ n → ev ∉ opsDefs ops → lowerOps ev ret top ops n = some (l, n') →
    n ≤ n' ∧ ∀ (env env' : Nat → V) (w : W), (∀ x < n₀, env' x = env x) →
      Same n₀ (execs I (env ev) ret top ops env w) (execs I (env ev) ret top l env' w)
  | [], top, n, l, n', hb, hn, hd, h => by
    simp only [lowerOps, Option.some.injEq, Prod.mk.injEq] at h
    obtain ⟨rfl, rfl⟩ := h
    exact ⟨Nat.le_refl _, fun env env' w hag => .next _ _ _ hag⟩
  | op :: ops, top, n, l, n', hb, hn, hd, h => by
    have io := lowerOp_ok I ev ret n₀ hev op top n
    have is := lowerOps_ok I ev ret n₀ hev ops top
    simp only [opsBound] at hb
    simp only [opsDefs, List.mem_append, not_or] at hd
    rw [lowerOps] at h
    cases ho : lowerOp ev ret top op n with
    | none => rw [ho] at h; cases h
    | some q =>
      obtain ⟨l₁, stop, n₁⟩ := q
      obtain ⟨h1, h2⟩ := io l₁ stop n₁ (by omega) hn hd.1 ho
      rw [ho] at h
      cases stop with
      | true =>
        simp only [Option.some.injEq, Prod.mk.injEq] at h
        obtain ⟨rfl, rfl⟩ := h
        refine ⟨h1, fun env env' w hag => ?_⟩
        obtain ⟨hs, hr⟩ := h2 env env' w hag
        obtain ⟨vs, w', hr⟩ := hr rfl
        rw [hr] at hs
        simp only [execs, hr]
        exact hs
      | false =>
        simp only at h
        cases hl : lowerOps ev ret top ops n₁ with
        | none => rw [hl] at h; cases h
        | some q =>
          obtain ⟨l₂, n₂⟩ := q
          rw [hl] at h
          simp only [Option.some.injEq, Prod.mk.injEq] at h
          obtain ⟨rfl, rfl⟩ := h
          obtain ⟨h3, h4⟩ := is n₁ l₂ n₂ (by omega) (by omega) hd.2 hl
          refine ⟨by omega, fun env env' w hag => ?_⟩
          obtain ⟨hs, -⟩ := h2 env env' w hag
          rw [execs_append]
          simp only [execs]
          have hf := exec_frame I (env ev) ret top op env w
          generalize exec I (env ev) ret top op env w = o₁ at hs hf
          generalize execs I (env ev) ret top l₁ env' w = o₂ at hs
          cases hs with
          | next a b w' hab =>
            have : a ev = env ev := hf a w' rfl ev hd.1
            rw [← this]
            exact h4 a b w' hab
          | yielded v w => exact .yielded _ _
          | returned vs w => exact .returned _ _
          | stuck => exact .stuck
end

/-! ### The form of the result -/

theorem opsClean_append (l l' : List Op) : opsClean (l ++ l') = (opsClean l && opsClean l') := by
  induction l with
  | nil => simp [opsClean]
  | cons o l ih => simp [opsClean, ih, Bool.and_assoc]

theorem pack_clean {legacy : Bool} {a o : Nat} {args : List Nat} {n : Nat} {q : List Op × Nat × Nat}
    (h : pack legacy a o args n = some q) : opsClean q.1 = true := by
  cases legacy with
  | false =>
    simp only [pack, packPayload, Bool.false_eq_true, if_false, Option.some.injEq] at h
    subst h; rfl
  | true =>
    simp only [pack, if_true] at h
    unfold packLegacy at h
    split at h
    · cases h; rfl
    · cases h; rfl
    · cases h

theorem returnOps_clean (ret : Ty) (r n : Nat) : opsClean (returnOps ret r n).1 = true := by
  cases ret <;> rfl

mutual
theorem lowerOp_clean (ev : Nat) (ret : Ty) : ∀ (op : Op) (top : Bool) (n : Nat)
    (q : List Op × Bool × Nat), lowerOp ev ret top op n = some q → opsClean q.1 = true
  | .prim .., top, n, q, h => by simp only [lowerOp, Option.some.injEq] at h; subst h; rfl
  | .yield .., top, n, q, h => by simp only [lowerOp, Option.some.injEq] at h; subst h; rfl
  | .ret .., top, n, q, h => by simp only [lowerOp, Option.some.injEq] at h; subst h; rfl
  | .structNew .., top, n, q, h => by simp only [lowerOp, Option.some.injEq] at h; subst h; rfl
  | .refNull .., top, n, q, h => by simp only [lowerOp, Option.some.injEq] at h; subst h; rfl
  | .cast .., top, n, q, h => by simp only [lowerOp, Option.some.injEq] at h; subst h; rfl
  | .dispatchCps .., top, n, q, h => by simp only [lowerOp, Option.some.injEq] at h; subst h; rfl
  | .dispatchTail .., top, n, q, h => by simp only [lowerOp, Option.some.injEq] at h; subst h; rfl
  | .perform legacy a o k args r, top, n, q, h => by
    rw [lowerOp] at h
    cases hp : pack legacy a o args n with
    | none => rw [hp] at h; cases h
    | some x =>
      have hc := pack_clean hp
      rw [hp] at h
      simp only at h
      split at h
      · simp only [Option.some.injEq] at h
        subst h
        simp only [opsClean_append, hc, returnOps_clean]
        rfl
      · simp only [Option.some.injEq] at h
        subst h
        simp only [opsClean_append, hc]
        rfl
  | .call legacy a o args r, top, n, q, h => by
    rw [lowerOp] at h
    cases hp : pack legacy a o args n with
    | none => rw [hp] at h; cases h
    | some x =>
      have hc := pack_clean hp
      rw [hp] at h
      simp only [Option.some.injEq] at h
      subst h
      simp only [opsClean_append, hc]
      rfl
  | .ite c t e r, top, n, q, h => by
    have it := lowerOps_clean ev ret t false n
    have ie := lowerOps_clean ev ret e false
    rw [lowerOp] at h
    cases ht : lowerOps ev ret false t n with
    | none => rw [ht] at h; cases h
    | some x =>
      rw [ht] at h
      simp only at h
      cases he : lowerOps ev ret false e x.2 with
      | none => rw [he] at h; cases h
      | some y =>
        rw [he] at h
        simp only [Option.some.injEq] at h
        subst h
        simp only [opsClean, Op.clean, it x ht, ie x.2 y he]
        rfl
theorem lowerOps_clean (ev : Nat) (ret : Ty) : ∀ (ops : List Op) (top : Bool) (n : Nat)
    (q : List Op × Nat), lowerOps ev ret top ops n = some q → opsClean q.1 = true
  | [], top, n, q, h => by simp only [lowerOps, Option.some.injEq] at h; subst h; rfl
  | op :: ops, top, n, q, h => by
    have io := lowerOp_clean ev ret op top n
    have is := lowerOps_clean ev ret ops top
    rw [lowerOps] at h
    cases ho : lowerOp ev ret top op n with
    | none => rw [ho] at h; cases h
    | some x =>
      obtain ⟨l, stop, n₁⟩ := x
      have h1 := io _ ho
      rw [ho] at h
      cases stop with
      | true => simp only [Option.some.injEq] at h; subst h; exact h1
      | false =>
        simp only at h
        cases hl : lowerOps ev ret top ops n₁ with
        | none => rw [hl] at h; cases h
        | some y =>
          rw [hl] at h
          simp only [Option.some.injEq] at h
          subst h
          simp only [opsClean_append, is n₁ y hl, Bool.and_true]
          exact h1
end

mutual
theorem lowerOp_same (ev : Nat) (ret : Ty) : ∀ (op : Op) (top : Bool) (n : Nat),
    op.clean = true → lowerOp ev ret top op n = some ([op], false, n)
  | .prim .., top, n, h => rfl
  | .yield .., top, n, h => rfl
  | .ret .., top, n, h => rfl
  | .structNew .., top, n, h => rfl
  | .refNull .., top, n, h => rfl
  | .cast .., top, n, h => rfl
  | .dispatchCps .., top, n, h => rfl
  | .dispatchTail .., top, n, h => rfl
  | .perform .., top, n, h => by cases h
  | .call .., top, n, h => by cases h
  | .ite c t e r, top, n, h => by
    simp only [Op.clean, Bool.and_eq_true] at h
    have it := lowerOps_same ev ret t false n h.1
    have ie := lowerOps_same ev ret e false n h.2
    rw [lowerOp, it]
    simp only [ie]
theorem lowerOps_same (ev : Nat) (ret : Ty) : ∀ (ops : List Op) (top : Bool) (n : Nat),
    opsClean ops = true → lowerOps ev ret top ops n = some (ops, n)
  | [], top, n, h => rfl
  | op :: ops, top, n, h => by
    simp only [opsClean, Bool.and_eq_true] at h
    have io := lowerOp_same ev ret op top n h.1
    have is := lowerOps_same ev ret ops top n h.2
    rw [lowerOps, io]
    simp only [is, List.singleton_append]
end

theorem pack_packed {legacy : Bool} (a o : Nat) {args : List Nat} (n : Nat)
    (h : (!legacy || decide (args.length ≤ 1)) = true) : ∃ q, pack legacy a o args n = some q := by
  cases legacy with
  | false => exact ⟨_, rfl⟩
  | true =>
    simp at h
    match args, h with
    | [], _ => exact ⟨_, rfl⟩
    | [v], _ => exact ⟨_, rfl⟩
    | _ :: _ :: _, h => simp at h

mutual
theorem lowerOp_total (ev : Nat) (ret : Ty) : ∀ (op : Op) (top : Bool) (n : Nat),
    op.packed = true → ∃ q, lowerOp ev ret top op n = some q
  | .prim .., top, n, h => ⟨_, rfl⟩
  | .yield .., top, n, h => ⟨_, rfl⟩
  | .ret .., top, n, h => ⟨_, rfl⟩
  | .structNew .., top, n, h => ⟨_, rfl⟩
  | .refNull .., top, n, h => ⟨_, rfl⟩
  | .cast .., top, n, h => ⟨_, rfl⟩
  | .dispatchCps .., top, n, h => ⟨_, rfl⟩
  | .dispatchTail .., top, n, h => ⟨_, rfl⟩
  | .perform l a o k args r, top, n, h => by
    obtain ⟨q, hq⟩ := pack_packed a o n h
    rw [lowerOp, hq]
    simp only
    split
    · exact ⟨_, rfl⟩
    · exact ⟨_, rfl⟩
  | .call l a o args r, top, n, h => by
    obtain ⟨q, hq⟩ := pack_packed a o n h
    rw [lowerOp, hq]
    exact ⟨_, rfl⟩
  | .ite c t e r, top, n, h => by
    simp only [Op.packed, Bool.and_eq_true] at h
    obtain ⟨x, hx⟩ := lowerOps_total ev ret t false n h.1
    obtain ⟨y, hy⟩ := lowerOps_total ev ret e false x.2 h.2
    rw [lowerOp, hx]
    simp only [hy]
    exact ⟨_, rfl⟩
theorem lowerOps_total (ev : Nat) (ret : Ty) : ∀ (ops : List Op) (top : Bool) (n : Nat),
    opsPacked ops = true → ∃ q, lowerOps ev ret top ops n = some q
  | [], top, n, h => ⟨_, rfl⟩
  | op :: ops, top, n, h => by
    simp only [opsPacked, Bool.and_eq_true] at h
    obtain ⟨⟨l, stop, n₁⟩, hx⟩ := lowerOp_total ev ret op top n h.1
    obtain ⟨y, hy⟩ := lowerOps_total ev ret ops top n₁ h.2
    rw [lowerOps, hx]
    cases stop with
    | true => exact ⟨_, rfl⟩
    | false => simp only [hy]; exact ⟨_, rfl⟩
end

theorem lowerOps_ends (ev : Nat) (ret : Ty) (ops : List Op) (n : Nat) (q : List Op × Nat)
    (hp : ops.any Op.isPerform = true) (h : lowerOps ev ret true ops n = some q) :
    ReturnsAnswer ret q.1 := by
  induction ops generalizing n q with
  | nil => simp at hp
  | cons op ops ih =>
    rw [lowerOps] at h
    have hno : op.isPerform = false → ∀ l n', lowerOp ev ret true op n ≠ some (l, true, n') := by
      intro hf l n' hl
      cases op <;> simp [lowerOp, Op.isPerform] at hl hf
      · split at hl
        · cases hl
        · split at hl <;> simp at hl
      · split at hl <;> simp at hl
    by_cases hpf : op.isPerform = true
    · cases op <;> simp [Op.isPerform] at hpf
      next legacy a o k args r =>
      rw [lowerOp] at h
      cases hpk : pack legacy a o args n with
      | none => rw [hpk] at h; cases h
      | some x =>
        obtain ⟨l, p, n₁⟩ := x
        rw [hpk] at h
        simp only [if_true, Option.some.injEq] at h
        subst h
        cases ret with
        | nil =>
          have := ReturnsAnswer.nil (ret := .nil) (l ++ [.cast k .anyref n₁]) a o ev n₁ p r rfl
          simpa [returnOps] using this
        | anyref =>
          have := ReturnsAnswer.anyref (ret := .anyref) (l ++ [.cast k .anyref n₁]) a o ev n₁ p r rfl
          simpa [returnOps] using this
        | other t =>
          have := ReturnsAnswer.other (ret := .other t) (l ++ [.cast k .anyref n₁]) a o ev n₁ p r t
            (n₁ + 1) rfl
          simpa [returnOps] using this
    · simp only [List.any_cons, Bool.or_eq_true, hpf, Bool.false_eq_true, false_or] at hp
      cases ho : lowerOp ev ret true op n with
      | none => rw [ho] at h; cases h
      | some x =>
        obtain ⟨l, stop, n₁⟩ := x
        cases stop with
        | true => exact absurd ho (hno (by simpa using hpf) l n₁)
        | false =>
          rw [ho] at h
          simp only at h
          cases hl : lowerOps ev ret true ops n₁ with
          | none => rw [hl] at h; cases h
          | some y =>
            rw [hl] at h
            simp only [Option.some.injEq] at h
            subst h
            have := ih n₁ y hp hl
            obtain ⟨y, n₂⟩ := y
            simp only at this ⊢
            cases this with
            | nil l' a o x k p r hr =>
              simp only [← List.append_assoc]; exact .nil _ _ _ _ _ _ _ hr
            | anyref l' a o x k p r hr =>
              simp only [← List.append_assoc]; exact .anyref _ _ _ _ _ _ _ hr
            | other l' a o x k p r t c hr =>
              simp only [← List.append_assoc]; exact .other _ _ _ _ _ _ _ _ _ hr

end Verif.Perform
