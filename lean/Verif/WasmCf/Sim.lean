import Verif.WasmCf.Locals

/- The emitted instructions do what the operations do. -/
namespace Verif.WasmCf

variable {I : Interp} {ty : Value → Ty} {loc : Locals}

/-- The locals hold the values. -/
def Rel (I : Interp) (ty : Value → Ty) (loc : Locals) (env : Env I) (L : Store I) : Prop :=
  (∀ v i, loc.lookup (.src v) = some i → L i = env v) ∧ ∀ v, ty v = 0 → env v = I.default 0

/-- How the ends of a list of operations and of its instructions correspond. `l`: the loop around it,
`k`: the number of conditionals between it and the loop, `us`: the values of its yield. -/
inductive Sim (I : Interp) (ty : Value → Ty) (loc : Locals) (l : Option (List Value × List Value))
    (k : Nat) (us : Option (List Value)) : Option (Res I) → Option (WRes I) → Prop
  | none : Sim I ty loc l k us none none
  | fell {env s L} : Rel I ty loc env L → Sim I ty loc l k us (some (.fell, env, s))
      (some (.fell [], L, s))
  | exit {nm vs env s L} : Sim I ty loc l k us (some (.exit nm vs, env, s)) (some (.exit nm vs, L, s))
  | trap {env s L} : Sim I ty loc l k us (some (.trap, env, s)) (some (.trap, L, s))
  | yield {vs env s L} : us = some vs → Rel I ty loc env L →
      Sim I ty loc l k us (some (.yield (vs.map env), env, s)) (some (.fell [], L, s))
  | cont {vs env s L ps res} : l = some (ps, res) → vs.length = ps.length →
      Rel I ty loc (puts env ps vs) L →
      Sim I ty loc l k us (some (.cont vs, env, s)) (some (.br k [], L, s))
  | brk {v env s L ps res} : l = some (ps, res) → Rel I ty loc env L →
      Sim I ty loc l k us (some (.brk v, env, s)) (some (.br (k + 1) [v], L, s))

theorem wexec_append (n : Nat) (a b : List Instr) : ∀ (st : List I.V) (L : Store I) (s : I.S),
    wexec n (a ++ b) st L s = match wexec n a st L s with
      | some (.fell st', L', s') => wexec n b st' L' s'
      | r => r := by
  induction a with
  | nil => intro st L s; rfl
  | cons i a ih =>
    intro st L s
    rw [List.cons_append, wexec, wexec]
    rcases wexecI n i st L s with _ | ⟨o, L', s'⟩
    · rfl
    · cases o with
      | fell st' => exact ih _ _ _
      | _ => rfl

theorem wexec_gets (n : Nat) {env : Env I} {L : Store I} (h : Rel I ty loc env L) :
    ∀ (as : List Value) (is : List Instr) (st : List I.V) (s : I.S),
      gets loc (as.map .src) = some is →
      wexec n is st L s = some (.fell ((as.map env).reverse ++ st), L, s)
  | [], is, st, s, hg => by
    cases hg
    rfl
  | a :: as, is, st, s, hg => by
    rw [List.map_cons, gets] at hg
    cases ha : loc.lookup (.src a) with
    | none => rw [ha] at hg; cases hg
    | some i =>
      rw [ha] at hg
      cases hr : gets loc (as.map .src) with
      | none => rw [hr] at hg; cases hg
      | some is' =>
        rw [hr] at hg
        cases hg
        rw [wexec, wexecI]
        have := wexec_gets n h as is' (L i :: st) s hr
        simp only
        rw [this, h.1 a i ha]
        simp

/-- Storing to the local of a value. -/
theorem Rel.set (hj : Inj loc) {env : Env I} {L : Store I} (h : Rel I ty loc env L) {r : Value}
    {i : Nat} (hi : loc.lookup (.src r) = some i) (v : I.V) (hv : ty r = 0 → v = I.default 0) :
    Rel I ty loc (put env r v) (fun j => if j = i then v else L j) := by
  constructor
  · intro x j hx
    by_cases e : x = r
    · subst e
      rw [hi] at hx
      cases hx
      simp [put]
    · have : j ≠ i := by
        intro e'
        subst e'
        exact e (Name.src.inj (hj _ _ _ hx hi))
      simp only [put, if_neg e, if_neg this]
      exact h.1 x j hx
  · intro x hx
    by_cases e : x = r
    · subst e
      simpa [put] using hv hx
    · simpa [put, e] using h.2 x hx

/-- A result of type nil. -/
theorem Rel.giveNil {env : Env I} {L : Store I} (h : Rel I ty loc env L) {r : Value} (hr : ty r = 0)
    (v : I.V) : Rel I ty loc (give ty env r v) L := by
  have : give ty env r v = env := by
    funext x
    simp only [give, put, if_pos hr]
    split
    · next e => rw [e, h.2 r hr]
    · rfl
  rw [this]
  exact h

/-- The value of an operation with a result is stored. -/
theorem wexec_setResult (hj : Inj loc) (n : Nat) {env : Env I} {L : Store I}
    (h : Rel I ty loc env L) {r : Value} {is : List Instr} (hr : ty r ≠ 0)
    (hs : setResult (tyName ty) loc (some (.src r)) = some is) (v : I.V) (st : List I.V) (s : I.S) :
    ∃ L', wexec n is (v :: st) L s = some (.fell st, L', s) ∧ Rel I ty loc (give ty env r v) L' := by
  have hr' : ¬ tyName ty (.src r) = 0 := hr
  simp only [setResult, if_neg hr'] at hs
  cases hi : loc.lookup (.src r) with
  | none => rw [hi] at hs; cases hs
  | some i =>
    rw [hi] at hs
    cases hs
    refine ⟨_, rfl, ?_⟩
    rw [give, if_neg hr]
    exact h.set hj hi v (fun e => absurd e hr)

/-- The nesting around a list of operations. -/
def NestOk (loc : Locals) (l : Option (List Value × List Value)) (k : Nat) (nest : List Kind) : Prop :=
  ∀ ps res, l = some (ps, res) → ∃ as rest, argLocals loc (ps.map .src) = some as ∧
    nest = List.replicate k .ite ++ .loop as :: .block :: rest

theorem NestOk.ite {l : Option (List Value × List Value)} {k : Nat} {nest : List Kind}
    (h : NestOk loc l k nest) : NestOk loc l (k + 1) (.ite :: nest) := by
  intro ps res e
  obtain ⟨as, rest, h1, h2⟩ := h ps res e
  exact ⟨as, rest, h1, by rw [h2, List.replicate_succ, List.cons_append]⟩

/-- The values of the yield at the end of a list. -/
def lastYield (os : List Op) : Option (List Value) :=
  match os.getLast? with
  | some (.yield vs) => some vs
  | _ => none

theorem lastYield_cons {o o' : Op} {os : List Op} :
    lastYield (o :: o' :: os) = lastYield (o' :: os) := by
  simp [lastYield, List.getLast?_cons_cons]

/-! ## How lists of operations can end -/

mutual
theorem quits_op (n : Nat) : ∀ (o : Op) (y l) (env : Env I) (s : I.S), o.rules ty y l →
    o.quits = true → ∀ r, execOp ty n o env s = some r → (r.1 ≠ .fell ∧ ∀ vs, r.1 ≠ .yield vs)
  | .plain .., _, _, _, _, _, h => by simp [Op.quits] at h
  | .yield .., _, _, _, _, _, h => by simp [Op.quits] at h
  | .loop .., _, _, _, _, _, h => by simp [Op.quits] at h
  | .cont vs, y, l, env, s, _, _ => by
    intro r hr
    rw [execOp] at hr
    cases hr
    exact ⟨nofun, nofun⟩
  | .brk vs, y, l, env, s, _, _ => by
    intro r hr
    rw [execOp] at hr
    cases hr
    exact ⟨nofun, nofun⟩
  | .exit _ vs, y, l, env, s, _, _ => by
    intro r hr
    rw [execOp] at hr
    cases hr
    exact ⟨nofun, nofun⟩
  | .ite c res t e, y, l, env, s, hw, hq => by
    intro r hr
    rw [Op.quits, Bool.and_eq_true] at hq
    rw [Op.rules] at hw
    rw [execOp] at hr
    have key : ∀ (x : Option (Res I)), (∀ r, x = some r → (r.1 ≠ .fell ∧ ∀ vs, r.1 ≠ .yield vs)) →
        afterBranch ty res x = some r → (r.1 ≠ .fell ∧ ∀ vs, r.1 ≠ .yield vs) := by
      intro x hx ha
      rcases x with _ | ⟨o, env', s'⟩
      · cases ha
      · have := hx _ rfl
        cases o with
        | fell => exact absurd rfl this.1
        | yield vs => exact absurd rfl (this.2 vs)
        | _ => cases ha; exact this
    split at hr
    · exact key _ (quits_ops n t _ _ env s hw.2.2.2.1 hq.1) hr
    · exact key _ (quits_ops n e _ _ env s hw.2.2.2.2 hq.2) hr
theorem quits_ops (n : Nat) : ∀ (os : List Op) (y l) (env : Env I) (s : I.S), rulesO ty y l os →
    quitsO os = true → ∀ r, execOps ty n os env s = some r → (r.1 ≠ .fell ∧ ∀ vs, r.1 ≠ .yield vs)
  | [], _, _, _, _, _, h => by simp [quitsO] at h
  | [o], y, l, env, s, hw, hq => by
    intro r hr
    rw [rulesO] at hw
    have := quits_op n o y l env s hw.1 hq
    rw [execOps] at hr
    rcases hx : execOp ty n o env s with _ | ⟨x, env', s'⟩
    · rw [hx] at hr; cases hr
    · have h1 := this _ hx
      rw [hx] at hr
      cases x with
      | fell => exact absurd rfl h1.1
      | _ => cases hr; exact h1
  | o :: o' :: os, y, l, env, s, hw, hq => by
    intro r hr
    rw [rulesO] at hw
    rw [execOps] at hr
    have ih := fun env s => quits_ops n (o' :: os) y l env s hw.2.2 hq
    have hterm : o.isTerm = false := by
      cases ht : o.isTerm with
      | false => rfl
      | true => cases hw.2.1 ht
    rcases hx : execOp ty n o env s with _ | ⟨x, env', s'⟩
    · rw [hx] at hr; cases hr
    · rw [hx] at hr
      cases x with
      | fell => exact ih _ _ _ hr
      | yield vs =>
        exfalso
        exact yield_term n o env s hterm hx
      | _ => cases hr; exact ⟨nofun, nofun⟩
/-- Only a yield yields. -/
theorem yield_term (n : Nat) : ∀ (o : Op) (env : Env I) (s : I.S) {vs env' s'}, o.isTerm = false →
    execOp ty n o env s = some (.yield vs, env', s') → False
  | .plain nm as r, env, s, vs, env', s', _, h => by
    rw [execOp] at h
    split at h
    · cases h
    · split at h <;> cases h
  | .ite c res t e, env, s, vs, env', s', _, h => by
    rw [execOp] at h
    have key : ∀ x : Option (Res I), afterBranch ty res x = some (.yield vs, env', s') → False := by
      intro x hx
      rcases x with _ | ⟨o, env', s'⟩
      · cases hx
      · cases o with
        | yield us =>
          simp only [afterBranch, Option.some.injEq] at hx
          exact gives_yield hx
        | _ => cases hx
    exact key _ h
  | .loop init res ps b, env, s, vs, env', s', _, h => by
    rw [execOp] at h
    exact iterate_yield _ _ _ _ h
  | .yield _, _, _, _, _, _, h, _ => by simp [Op.isTerm] at h
  | .cont _, _, _, _, _, _, h, _ => by simp [Op.isTerm] at h
  | .brk _, _, _, _, _, _, h, _ => by simp [Op.isTerm] at h
  | .exit _ _, _, _, _, _, _, _, h => by rw [execOp] at h; cases h
theorem gives_yield {res : List Value} {us vs : List I.V} {env env' : Env I} {s s' : I.S}
    (h : gives ty res us env s = (.yield vs, env', s')) : False := by
  unfold gives at h
  split at h
  · cases h
  · cases h
  · split at h <;> cases h
  · cases h
theorem iterate_yield {body : Env I → I.S → Option (Res I)} {res ps : List Value} :
    ∀ (k : Nat) (us : List I.V) (env : Env I) (s : I.S) {vs env' s'},
      iterate body ty res ps k us env s = some (.yield vs, env', s') → False
  | 0, _, _, _, _, _, _, h => by cases h
  | k + 1, us, env, s, vs, env', s', h => by
    rw [iterate] at h
    split at h
    · split at h
      · exact iterate_yield k _ _ _ h
      · simp only [Option.some.injEq] at h
        exact gives_yield h
      · cases h
      · cases h
      · next hn _ => exact (hn _ _ _ h).elim
    · cases h
end

theorem ended_ops (n : Nat) {os : List Op} {y l} (hw : rulesO ty y l os) (he : ended os) (env : Env I)
    (s : I.S) {env' s'} (h : execOps ty n os env s = some (.fell, env', s')) : False := by
  rcases he with he | ⟨vs, he⟩
  · exact (quits_ops n os y l env s hw he _ h).1 rfl
  · induction os generalizing env s with
    | nil => simp at he
    | cons o os ih =>
      rw [execOps] at h
      cases os with
      | nil =>
        simp only [List.getLast?_singleton, Option.some.injEq] at he
        subst he
        simp [execOp] at h
      | cons o' os =>
        rw [List.getLast?_cons_cons] at he
        rw [rulesO] at hw
        split at h
        · exact ih hw.2.2 _ _ h he
        · next hn => exact hn _ _ h

/-! ## Emission -/

theorem emit_append {T : Name → Ty} {nest : List Kind} : ∀ {o : Op}, o.isTerm = false →
    ∀ (ws : List WOp), emitOps T loc nest (lowerOp o ++ ws) =
      (emitOps T loc nest (lowerOp o)).bind fun a => (emitOps T loc nest ws).map (a ++ ·) := by
  have key : ∀ (w : WOp) (ws : List WOp), (∀ v, w ≠ .yield v) →
      emitOps T loc nest ([w] ++ ws) =
        (emitOps T loc nest [w]).bind fun a => (emitOps T loc nest ws).map (a ++ ·) := by
    intro w ws hw
    cases w with
    | yield v => exact absurd rfl (hw v)
    | _ =>
      simp only [List.cons_append, List.nil_append, emitOps]
      rcases emitOp T loc nest _ with _ | a
      · rfl
      · rcases emitOps T loc nest ws with _ | b
        · rfl
        · simp
  intro o ho ws
  cases o with
  | plain nm as r => exact key _ _ nofun
  | exit nm as => exact key _ _ nofun
  | ite c res t e =>
    match res with
    | [] => rw [lowerOp]; exact key _ _ nofun
    | [r] => rw [lowerOp]; exact key _ _ nofun
    | _ :: _ :: _ => rw [lowerOp] <;> first | exact key _ _ nofun | simp
  | loop i res ps b =>
    match res with
    | [] => rw [lowerOp]; exact key _ _ nofun
    | [r] => rw [lowerOp]; exact key _ _ nofun
    | _ :: _ :: _ => rw [lowerOp] <;> first | exact key _ _ nofun | simp
  | _ => simp [Op.isTerm] at ho

theorem emit_single {T : Name → Ty} {nest : List Kind} {w : WOp} (hw : ∀ v, w ≠ .yield v) :
    emitOps T loc nest [w] = emitOp T loc nest w := by
  cases w with
  | yield v => exact absurd rfl (hw v)
  | _ =>
    simp only [emitOps]
    rcases emitOp T loc nest _ with _ | a
    · rfl
    · simp

/-- Copying the initial values of a loop. -/
theorem wexec_init (hj : Inj loc) (n : Nat) : ∀ (init ps : List Value) (as : List Nat)
    (is : List Instr) (env0 env : Env I) (L : Store I) (s : I.S), Rel I ty loc env L →
    (∀ v ∈ init, env v = env0 v) → (∀ v ∈ init, v ∉ ps) → init.map ty = ps.map ty →
    argLocals loc (ps.map .src) = some as → initCopies loc (init.map .src) as = some is →
    ∃ L', wexec n is [] L s = some (.fell [], L', s) ∧
      Rel I ty loc (puts env ps (init.map env0)) L'
  | [], [], as, is, env0, env, L, s, hR, _, _, _, ha, hi => by
    cases ha
    cases hi
    exact ⟨L, rfl, hR⟩
  | [], _ :: _, _, _, _, _, _, _, _, _, _, ht, _, _ => by simp at ht
  | _ :: _, [], _, _, _, _, _, _, _, _, _, ht, _, _ => by simp at ht
  | v :: init, p :: ps, as, is, env0, env, L, s, hR, h0, hd, ht, ha, hi => by
    rw [List.map_cons, argLocals] at ha
    cases hp : loc.lookup (.src p) with
    | none => rw [hp] at ha; cases ha
    | some a =>
      rw [hp] at ha
      cases hps : argLocals loc (ps.map .src) with
      | none => rw [hps] at ha; cases ha
      | some as' =>
        rw [hps] at ha
        cases ha
        rw [List.map_cons, initCopies] at hi
        cases hv : loc.lookup (.src v) with
        | none => rw [hv] at hi; cases hi
        | some i =>
          rw [hv] at hi
          cases hr : initCopies loc (init.map .src) as' with
          | none => rw [hr] at hi; cases hi
          | some is' =>
            rw [hr] at hi
            cases hi
            simp only [List.map_cons, List.cons.injEq] at ht
            have hset : Rel I ty loc (put env p (env v)) (fun j => if j = a then L i else L j) := by
              rw [hR.1 v i hv]
              exact hR.set hj hp (env v) (fun e => hR.2 v (ht.1.trans e))
            have hne : v ≠ p := fun e => hd v List.mem_cons_self (by simp [e])
            obtain ⟨L', h1, h2⟩ := wexec_init hj n init ps as' is' env0 _ _ s hset
              (by
                intro x hx
                have : x ≠ p := fun e => hd x (List.mem_cons_of_mem _ hx) (by simp [e])
                simp [put, this, h0 x (List.mem_cons_of_mem _ hx)])
              (fun x hx hm => hd x (List.mem_cons_of_mem _ hx) (List.mem_cons_of_mem _ hm)) ht.2 hps hr
            refine ⟨L', ?_, ?_⟩
            · simpa [wexec, wexecI] using h1
            · rw [List.map_cons, puts, ← h0 v List.mem_cons_self]
              exact h2

end Verif.WasmCf
