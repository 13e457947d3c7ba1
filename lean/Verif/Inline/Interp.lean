import Verif.Inline.Spec
/-!
# Facts about the interpreter
-/
namespace Verif.Inline

variable {V W σ : Type}

/-- `b` is at least as defined as `a`. -/
def Le {α : Type} (a b : Option α) : Prop := ∀ r, a = some r → b = some r

theorem Le.refl {α : Type} (a : Option α) : Le a a := fun _ h => h
theorem Le.trans {α : Type} {a b c : Option α} (h : Le a b) (h' : Le b c) : Le a c :=
  fun r hr => h' r (h r hr)

theorem Le.map {α β : Type} {a b : Option α} (f : α → β) (h : Le a b) : Le (a.map f) (b.map f) := by
  intro r hr
  cases a with
  | none => simp at hr
  | some x => rw [h x rfl]; exact hr

theorem Le.afterCall {a b : Option (Result V W)} (env : Env V) (rs : List Value) (h : Le a b) :
    Le (afterCall env rs a) (afterCall env rs b) := by
  cases a with
  | none => intro r hr; simp [Inline.afterCall] at hr
  | some x => rw [h x rfl]; exact Le.refl _

theorem Le.afterTail {a b : Option (Result V W)} (h : Le a b) :
    Le (afterTail a) (afterTail b) := by
  cases a with
  | none => intro r hr; simp [Inline.afterTail] at hr
  | some x => rw [h x rfl]; exact Le.refl _

theorem Le.afterOther {a b : Option (Outcome V W)} (env : Env V) (rs : List Value) (h : Le a b) :
    Le (afterOther env rs a) (afterOther env rs b) := by
  cases a with
  | none => intro r hr; simp [Inline.afterOther] at hr
  | some x => rw [h x rfl]; exact Le.refl _

theorem Le.andThen {a b : Option (Res V W)} {r r' : Env V → W → Option (Res V W)} (h : Le a b)
    (h' : ∀ env w, Le (r env w) (r' env w)) : Le (andThen a r) (andThen b r') := by
  cases a with
  | none => intro r hr; simp [Inline.andThen] at hr
  | some x =>
    rw [h x rfl]
    cases x with
    | next env w => exact h' env w
    | exit e => exact Le.refl _

/-- Regions, one at least as defined as the other. -/
def RegsLe (a b : List (List V → W → Option (Exit V W))) : Prop :=
  a.length = b.length ∧ ∀ (i : Nat) d d', a[i]? = some d → b[i]? = some d' → ∀ args w, Le (d args w) (d' args w)

theorem drive_mono (S : Sem V W σ) {c c' : Sym → List V → W → Option (Result V W)}
    (hc : ∀ g a w, Le (c g a w) (c' g a w)) {regs regs'} (hr : RegsLe regs regs') :
    ∀ (k k' : Nat) (st : Step V W σ), k ≤ k' → Le (drive S c regs k st) (drive S c' regs' k' st)
  | 0, _, _, _ => fun r h => by simp [drive] at h
  | k + 1, 0, _, h => by omega
  | k + 1, k' + 1, st, h => by
    have ih := drive_mono S hc hr k k'
    have hk : k ≤ k' := by omega
    cases st with
    | done vals w => simp only [drive]; exact Le.refl _
    | trap w => simp only [drive]; exact Le.refl _
    | run i args s w =>
      simp only [drive]
      cases h1 : regs[i]? with
      | none =>
        have : regs'[i]? = none := by
          rw [List.getElem?_eq_none_iff] at h1 ⊢; rw [← hr.1]; exact h1
        rw [this]; exact Le.refl _
      | some d =>
        have hlt : i < regs'.length := by
          rw [← hr.1]; exact (List.getElem?_eq_some_iff.mp h1).1
        have h2 : regs'[i]? = some regs'[i] := List.getElem?_eq_getElem hlt
        rw [h2]
        have hd := hr.2 i d _ h1 h2 args w
        simp only
        cases h3 : d args w with
        | none => intro r hr; simp at hr
        | some e =>
          rw [hd e h3]
          cases e with
          | fell w' => exact ih _ hk
          | leave n vs w' => exact ih _ hk
          | ends r => exact Le.refl _
    | call g args s w =>
      simp only [drive]
      cases h3 : c g args w with
      | none => intro r hr; simp at hr
      | some e =>
        rw [hc g args w e h3]
        cases e with
        | ret vs w' => exact ih _ hk
        | trap w' => exact Le.refl _
        | stuck => exact Le.refl _

theorem stepOp_mono (S : Sem V W σ) {F G : Oracle V W} (hF : ∀ i g a w, Le (F i g a w) (G i g a w))
    {k k' : Nat} (hk : k ≤ k') (h : Head) {regs regs'} (hr : RegsLe regs regs') (env : Env V) (w : W) :
    Le (stepOp S F k h regs env w) (stepOp S G k' h regs' env w) := by
  unfold stepOp
  cases env.read h.operands with
  | none => exact Le.refl _
  | some xs =>
    simp only
    cases h.kind with
    | call c => cases c with
      | none => exact Le.refl _
      | some g => exact (hF _ _ _ _).afterCall _ _
    | tailCall c => cases c with
      | none => exact Le.refl _
      | some g => exact (hF _ _ _ _).afterTail
    | tailCallIndirect => cases xs with
      | nil => exact Le.refl _
      | cons x xs =>
        simp only
        cases S.target x with
        | none => exact Le.refl _
        | some g => exact (hF _ _ _ _).afterTail
    | ret => exact Le.refl _
    | leave n => exact Le.refl _
    | constant c => exact Le.refl _
    | other n => exact (drive_mono S (hF h.id) hr k k' _ hk).afterOther _ _

mutual
theorem Ops.run_mono (S : Sem V W σ) {F G : Oracle V W} (hF : ∀ i g a w, Le (F i g a w) (G i g a w))
    {k k' : Nat} (hk : k ≤ k') : ∀ (o : Ops) (env : Env V) (w : W),
    Le (o.run S F k env w) (o.run S G k' env w)
  | .nil, env, w => by simp only [Ops.run]; exact Le.refl _
  | .cons h rs rest, env, w => by
    simp only [Ops.run]
    exact (stepOp_mono S hF hk h (Regions.run_mono S hF hk rs env) env w).andThen
      (Ops.run_mono S hF hk rest)
theorem Regions.run_mono (S : Sem V W σ) {F G : Oracle V W} (hF : ∀ i g a w, Le (F i g a w) (G i g a w))
    {k k' : Nat} (hk : k ≤ k') : ∀ (rs : Regions) (env : Env V),
    RegsLe (rs.run S F k env) (rs.run S G k' env)
  | .nil, env => by simp only [Regions.run]; exact ⟨rfl, fun i d d' h => by simp at h⟩
  | .cons ps body rest, env => by
    simp only [Regions.run]
    obtain ⟨h1, h2⟩ := Regions.run_mono S hF hk rest env
    refine ⟨by simp [h1], fun i d d' hd hd' args w => ?_⟩
    cases i with
    | zero =>
      simp only [List.getElem?_cons_zero, Option.some.injEq] at hd hd'
      subst hd hd'
      by_cases hl : ps.length = args.length
      · simp only [if_pos hl]; exact (Ops.run_mono S hF hk body _ w).map _
      · simp only [if_neg hl]; exact Le.refl _
    | succ i =>
      simp only [List.getElem?_cons_succ] at hd hd'
      exact h2 i d d' hd hd' args w
end

theorem Func.run_mono (S : Sem V W σ) {F G : Oracle V W} (hF : ∀ i g a w, Le (F i g a w) (G i g a w))
    {k k' : Nat} (hk : k ≤ k') (f : Func) (args : List V) (w : W) :
    Le (f.run S F k args w) (f.run S G k' args w) := by
  unfold Func.run
  rcases f.body with _ | _ | ⟨b, _ | ⟨b', bs⟩⟩
  · exact Le.refl _
  · exact Le.refl _
  · simp only [Block.run]
    by_cases hl : b.params.length = args.length
    · simp only [if_pos hl]; exact (Ops.run_mono S hF hk _ _ w).map _
    · simp only [if_neg hl]; exact Le.refl _
  · exact Le.refl _

theorem evalFn_mono (S : Sem V W σ) (m : Module) : ∀ (n n' : Nat), n ≤ n' → ∀ g args w,
    Le (evalFn S m n g args w) (evalFn S m n' g args w)
  | 0, _, _, _, _, _ => fun r h => by simp [evalFn] at h
  | n + 1, 0, h, _, _, _ => by omega
  | n + 1, n' + 1, h, g, args, w => by
    simp only [evalFn]
    cases lastNamed m.funcs g with
    | none => exact Le.refl _
    | some f =>
      exact Func.run_mono S (fun _ => evalFn_mono S m n n' (by omega)) (by omega) f args w

theorem andThen_assoc (a : Option (Res V W)) (f g : Env V → W → Option (Res V W)) :
    andThen (andThen a f) g = andThen a (fun env w => andThen (f env w) g) := by
  cases a with
  | none => rfl
  | some x => cases x <;> rfl

theorem run_append (S : Sem V W σ) (F : Oracle V W) (k : Nat) (b : Ops) : ∀ (a : Ops) (env : Env V) (w : W),
    (a.append b).run S F k env w = andThen (a.run S F k env w) (b.run S F k)
  | .nil, env, w => by simp only [Ops.append, Ops.run, andThen]
  | .cons h rs rest, env, w => by
    simp only [Ops.append, Ops.run, andThen_assoc]
    congr 1
    funext env w
    exact run_append S F k b rest env w

theorem splitLast_append : ∀ {o body : Ops} {last : Head}, o.splitLast = some (body, last) →
    ∃ rs, o = body.append (.cons last rs .nil)
  | .nil, _, _, h => by simp [Ops.splitLast] at h
  | .cons hd rs .nil, body, last, h => by
    simp only [Ops.splitLast, Option.some.injEq, Prod.mk.injEq] at h
    obtain ⟨rfl, rfl⟩ := h
    exact ⟨rs, rfl⟩
  | .cons hd rs (.cons hd' rs' rest), body, last, h => by
    simp only [Ops.splitLast, Option.bind_eq_bind, Option.bind_eq_some_iff] at h
    obtain ⟨⟨b, l⟩, h1, h2⟩ := h
    simp only [Option.some.injEq, Prod.mk.injEq] at h2
    obtain ⟨rfl, rfl⟩ := h2
    obtain ⟨rs'', h3⟩ := splitLast_append h1
    exact ⟨rs'', by rw [h3]; rfl⟩

/-- Results that agree but for the environments, which are related by `R`. -/
inductive RelRes (R : Env V → Env V → Prop) : Option (Res V W) → Option (Res V W) → Prop
  | none : RelRes R none none
  | exit (e : Exit V W) : RelRes R (some (.exit e)) (some (.exit e))
  | next {env env' : Env V} (w : W) (h : R env env') : RelRes R (some (.next env w)) (some (.next env' w))

theorem RelRes.andThen {R R' : Env V → Env V → Prop} {a b : Option (Res V W)}
    {f g : Env V → W → Option (Res V W)} (h : RelRes R a b)
    (h' : ∀ env env' w, R env env' → RelRes R' (f env w) (g env' w)) :
    RelRes R' (andThen a f) (andThen b g) := by
  cases h with
  | none => exact .none
  | exit e => exact .exit e
  | next w h => exact h' _ _ w h

theorem RelRes.mono {R R' : Env V → Env V → Prop} {a b : Option (Res V W)} (h : RelRes R a b)
    (h' : ∀ env env', R env env' → R' env env') : RelRes R' a b := by
  cases h with
  | none => exact .none
  | exit e => exact .exit e
  | next w h => exact .next w (h' _ _ h)

theorem RelRes.toExit {R : Env V → Env V → Prop} {a b : Option (Res V W)} (h : RelRes R a b) :
    a.map Res.toExit = b.map Res.toExit := by
  cases h <;> rfl

/-- One operation, on environments and heads that agree on operands, and results whose bindings are related. -/
theorem stepOp_rel (S : Sem V W σ) {F F' : Oracle V W} (k : Nat) {h h' : Head} (hk : h'.kind = h.kind)
    (hF : F' h'.id = F h.id)
    (hl : h'.results.length = h.results.length) {regs : List (List V → W → Option (Exit V W))}
    {env env' : Env V} (hread : env'.read h'.operands = env.read h.operands) {R : Env V → Env V → Prop}
    (hR : ∀ vals, h.results.length = vals.length → R (env.bind h.results vals) (env'.bind h'.results vals))
    (w : W) : RelRes R (stepOp S F k h regs env w) (stepOp S F' k h' regs env' w) := by
  have hg : ∀ vals (w : W), RelRes R (some (give env h.results vals w)) (some (give env' h'.results vals w)) := by
    intro vals w
    unfold give
    rw [hl]
    by_cases hlen : h.results.length = vals.length
    · rw [if_pos hlen, if_pos hlen]; exact .next w (hR vals hlen)
    · rw [if_neg hlen, if_neg hlen]; exact .exit _
  unfold stepOp
  rw [hread, hk, hF]
  cases env.read h.operands with
  | none => exact .exit _
  | some xs =>
    simp only
    cases h.kind with
    | call c => cases c with
      | none => exact .exit _
      | some g =>
        simp only
        rcases F h.id g xs w with _ | r
        · exact .none
        · cases r with
          | ret vals w => exact hg vals w
          | trap w => exact .exit _
          | stuck => exact .exit _
    | tailCall c => cases c with
      | none => exact .exit _
      | some g =>
        simp only
        rcases F h.id g xs w with _ | r
        · exact .none
        · exact .exit _
    | tailCallIndirect => cases xs with
      | nil => exact .exit _
      | cons x xs =>
        simp only
        cases S.target x with
        | none => exact .exit _
        | some g =>
          simp only
          rcases F h.id g xs w with _ | r
          · exact .none
          · exact .exit _
    | ret => exact .exit _
    | leave n => exact .exit _
    | constant c => exact hg _ _
    | other n =>
      simp only
      rcases drive S (F h.id) regs k (S.start n xs w) with _ | r
      · exact .none
      · cases r with
        | vals vals w => exact hg vals w
        | ends r => exact .exit _

theorem read_congr {env env' : Env V} {ρ : Value → Value} : ∀ {vs : List Value},
    (∀ v ∈ vs, env v = env' (ρ v)) → env'.read (vs.map ρ) = env.read vs
  | [], _ => rfl
  | v :: vs, h => by
    simp only [List.map_cons, Env.read]
    rw [h v (by simp), read_congr fun u hu => h u (by simp [hu])]

theorem read_length {env : Env V} : ∀ {vs : List Value} {xs : List V}, env.read vs = some xs →
    vs.length = xs.length
  | [], xs, h => by simp only [Env.read, Option.some.injEq] at h; subst h; rfl
  | v :: vs, xs, h => by
    simp only [Env.read, Option.bind_eq_bind, Option.bind_eq_some_iff] at h
    obtain ⟨x, _, ys, h2, h3⟩ := h
    simp only [Option.some.injEq] at h3; subst h3
    simp [read_length h2]

end Verif.Inline
