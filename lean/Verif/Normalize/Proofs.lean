import Verif.Normalize.Spec
import Mathlib.Tactic.Tauto
/-!
# Normalisation preserves meaning: lemmas
-/
namespace Verif.Normalize

variable {M : Type → Type} {V : Type} [Monad M]

/-! ## Dependence on the locals in scope -/

def Agree (G : List Nat) (env env' : Env V) : Prop := ∀ i ∈ G, env i = env' i

theorem Agree.mono {G G' : List Nat} {env env' : Env V} (h : Agree G env env') (hs : ∀ i ∈ G', i ∈ G) :
    Agree G' env env' := fun i hi => h i (hs i hi)

theorem Agree.set {G : List Nat} {env env' : Env V} (h : Agree G env env') (ids : List Nat) (f : Nat → V) :
    Agree (G ++ ids) (env.set ids f) (env'.set ids f) := by
  intro i hi
  unfold Env.set
  by_cases hm : i ∈ ids
  · simp [hm]
  · have : i ∈ G := by simpa [hm] using hi
    simp [hm, h i this]

mutual
theorem eval_agree (S : Sem M V) (G : List Nat) (e : Expr) (env env' : Env V) (hs : Scoped G e)
    (ha : Agree G env env') : eval S e env = eval S e env' := by
  match e with
  | .var i => simp only [eval]; rw [ha i (by simpa [Scoped] using hs)]
  | .global _ => rfl
  | .lit _ => rfl
  | .lambda ps b =>
    simp only [Scoped] at hs
    simp only [eval]
    congr 2; funext f
    exact eval_agree S _ b _ _ hs (ha.set ps f)
  | .call f as =>
    simp only [Scoped] at hs
    simp only [eval]
    rw [eval_agree S G f env env' hs.1 ha, evals_agree S G as env env' hs.2 ha]
  | .cons k as => simp only [Scoped] at hs; simp only [eval]; rw [evals_agree S G as env env' hs ha]
  | .tuple as => simp only [Scoped] at hs; simp only [eval]; rw [evals_agree S G as env env' hs ha]
  | .list as => simp only [Scoped] at hs; simp only [eval]; rw [evals_agree S G as env env' hs ha]
  | .record _ _ as => simp only [Scoped] at hs; simp only [eval]; rw [evals_agree S G as env env' hs ha]
  | .recordWith _ s _ as =>
    simp only [Scoped] at hs
    simp only [eval]
    rw [eval_agree S G s env env' hs.1 ha, evals_agree S G as env env' hs.2 ha]
  | .and l r =>
    simp only [Scoped] at hs
    simp only [eval]
    rw [eval_agree S G l env env' hs.1 ha, eval_agree S G r env env' hs.2 ha]
  | .or l r =>
    simp only [Scoped] at hs
    simp only [eval]
    rw [eval_agree S G l env env' hs.1 ha, eval_agree S G r env env' hs.2 ha]
  | .block ss e =>
    simp only [Scoped] at hs
    simp only [eval]
    exact runs_agree S G ss env env' _ _ hs.1 ha fun e1 e2 h => eval_agree S _ e e1 e2 hs.2 h
  | .cases s as =>
    simp only [Scoped] at hs
    simp only [eval]
    rw [eval_agree S G s env env' hs.1 ha]
    congr 1; funext v
    exact arms_agree S G as v env env' hs.2 ha
  | .handle b hs' =>
    simp only [Scoped] at hs
    simp only [eval]
    rw [eval_agree S G b env env' hs.1 ha, handlers_agree S G hs' env env' hs.2 ha]
  | .resume k a =>
    simp only [Scoped] at hs
    simp only [eval]
    rw [eval_agree S G a env env' hs.2 ha, ha k hs.1]
  | .method r m as =>
    simp only [Scoped] at hs
    simp only [eval]
    rw [eval_agree S G r env env' hs.1 ha, evals_agree S G as env env' hs.2 ha]
theorem evals_agree (S : Sem M V) (G : List Nat) (es : Exprs) (env env' : Env V) (hs : ScopedAll G es)
    (ha : Agree G env env') : evals S es env = evals S es env' := by
  match es with
  | .nil => rfl
  | .cons e es =>
    simp only [ScopedAll] at hs
    simp only [evals]
    rw [eval_agree S G e env env' hs.1 ha, evals_agree S G es env env' hs.2 ha]
theorem runs_agree (S : Sem M V) (G : List Nat) (ss : Stmts) (env env' : Env V) (k k' : Env V → M V)
    (hs : ScopedStmts G ss) (ha : Agree G env env')
    (hk : ∀ e1 e2, Agree (G ++ ss.ids) e1 e2 → k e1 = k' e2) : runs S ss env k = runs S ss env' k' := by
  match ss with
  | .nil => simp only [runs]; exact hk _ _ (by simpa [Stmts.ids] using ha)
  | .bind p e ss =>
    simp only [ScopedStmts] at hs
    simp only [runs]
    rw [eval_agree S G e env env' hs.1 ha]
    congr 1; funext v; congr 1; funext f
    exact runs_agree S _ ss _ _ k k' hs.2 (ha.set p.ids f) fun e1 e2 h =>
      hk e1 e2 (by simpa [Stmts.ids] using h)
  | .run e ss =>
    simp only [ScopedStmts] at hs
    simp only [runs]
    rw [eval_agree S G e env env' hs.1 ha]
    congr 1; funext v
    exact runs_agree S _ ss _ _ k k' hs.2 ha fun e1 e2 h => hk e1 e2 (by simpa [Stmts.ids] using h)
theorem arms_agree (S : Sem M V) (G : List Nat) (as : Arms) (v : V) (env env' : Env V)
    (hs : ScopedArms G as) (ha : Agree G env env') : evalArms S as v env = evalArms S as v env' := by
  match as with
  | .nil => rfl
  | .arm p b as =>
    simp only [ScopedArms] at hs
    simp only [evalArms]
    rw [arms_agree S G as v env env' hs.2 ha]
    congr 1; funext r
    cases r with
    | none => rfl
    | some f => exact eval_agree S _ b _ _ hs.1 (ha.set p.ids f)
  | .guarded p g b as =>
    simp only [ScopedArms] at hs
    simp only [evalArms]
    rw [arms_agree S G as v env env' hs.2.2 ha]
    congr 1; funext r
    cases r with
    | none => rfl
    | some f =>
      simp only
      rw [eval_agree S _ g _ _ hs.1 (ha.set p.ids f), eval_agree S _ b _ _ hs.2.1 (ha.set p.ids f)]
theorem handlers_agree (S : Sem M V) (G : List Nat) (hs' : Handlers) (env env' : Env V)
    (hs : ScopedHandlers G hs') (ha : Agree G env env') :
    evalHandlers S hs' env = evalHandlers S hs' env' := by
  match hs' with
  | .nil => rfl
  | .on op ids b rest =>
    simp only [ScopedHandlers] at hs
    simp only [evalHandlers]
    rw [handlers_agree S G rest env env' hs.2 ha]
    congr 3; funext f
    exact eval_agree S _ b _ _ hs.1 (ha.set ids f)
end

/-! ## Running statements -/

theorem ids_append : ∀ s t : Stmts, (s.append t).ids = s.ids ++ t.ids
  | .nil, _ => rfl
  | .bind p e s, t => by simp [Stmts.append, Stmts.ids, ids_append s t]
  | .run e s, t => by simp [Stmts.append, Stmts.ids, ids_append s t]

theorem append_nil : ∀ s : Stmts, s.append .nil = s
  | .nil => rfl
  | .bind p e s => by simp [Stmts.append, append_nil s]
  | .run e s => by simp [Stmts.append, append_nil s]

theorem runs_append (S : Sem M V) : ∀ (s t : Stmts) (env : Env V) (k : Env V → M V),
    runs S (s.append t) env k = runs S s env fun env' => runs S t env' k
  | .nil, _, _, _ => by simp [Stmts.append, runs]
  | .bind p e s, t, env, k => by simp only [Stmts.append, runs, runs_append S s t]
  | .run e s, t, env, k => by simp only [Stmts.append, runs, runs_append S s t]

/-- Statements change only the locals they bind. -/
theorem runs_congr (S : Sem M V) : ∀ (s : Stmts) (env : Env V) (k k' : Env V → M V),
    (∀ env', (∀ i, i ∉ s.ids → env' i = env i) → k env' = k' env') → runs S s env k = runs S s env k'
  | .nil, env, k, k', h => by simp only [runs]; exact h env fun _ _ => rfl
  | .bind p e s, env, k, k', h => by
    simp only [runs]
    congr 1; funext v; congr 1; funext f
    refine runs_congr S s _ k k' fun env' he => h env' fun i hi => ?_
    simp only [Stmts.ids, List.mem_append, not_or] at hi
    rw [he i hi.2]; simp [Env.set, hi.1]
  | .run e s, env, k, k', h => by
    simp only [runs]
    congr 1; funext v
    exact runs_congr S s _ k k' fun env' he => h env' fun i hi => he i (by simpa [Stmts.ids] using hi)

/-- The value of an atom. -/
def aval (S : Sem M V) : Expr → Env V → V
  | .var i, env => env i
  | .global g, _ => S.global g
  | .lit l, _ => S.lit l
  | .lambda ps b, env => S.lam ps fun f => eval S b (env.set ps f)
  | _, env => env 0

theorem eval_atom (S : Sem M V) (e : Expr) (env : Env V) (h : isAtom e = true) :
    eval S e env = pure (aval S e env) := by
  cases e <;> first | (simp [isAtom] at h; done) | (simp only [eval, aval])

/-! ## Distinctness of locals -/

theorem Apart.left {G a b c} (h : Apart G (a ++ b) c) : Apart G a c :=
  ⟨(List.nodup_append.mp h.nodup).1, fun i hi => h.disj i (by simp [hi]), fun i hi => h.lt i (by simp [hi]),
    h.glt⟩

theorem Apart.right {G a b c} (h : Apart G (a ++ b) c) : Apart G b c :=
  ⟨(List.nodup_append.mp h.nodup).2.1, fun i hi => h.disj i (by simp [hi]),
    fun i hi => h.lt i (by simp [hi]), h.glt⟩

theorem Apart.sep {G a b c} (h : Apart G (a ++ b) c) : ∀ i ∈ a, i ∉ b :=
  fun i hi hb => (List.nodup_append.mp h.nodup).2.2 i hi i hb rfl

theorem Apart.mono {G a c c'} (h : Apart G a c) (hc : c ≤ c') : Apart G a c' :=
  ⟨h.nodup, h.disj, fun i hi => by have := h.lt i hi; omega, fun i hi => by have := h.glt i hi; omega⟩

theorem Apart.enter {G ps b c} (h : Apart G (ps ++ b) c) : Apart (G ++ ps) b c := by
  refine ⟨h.right.nodup, fun i hi hg => ?_, h.right.lt, fun i hi => ?_⟩
  · rcases List.mem_append.mp hg with hg | hg
    · exact h.right.disj i hi hg
    · exact h.sep i hg hi
  · rcases List.mem_append.mp hi with hi | hi
    · exact h.glt i hi
    · exact h.left.lt i hi

/-! ## The invariant -/

/-- `k` depends only on the locals of `G`. -/
def Dep {α : Type} (G : List Nat) (k : α → Env V → M V) : Prop :=
  ∀ v env env', Agree G env env' → k v env = k v env'

/-- What is said of the statements `s` and the value `v` an expression was split into. -/
structure Split (S : Sem M V) (G : List Nat) (bs : List Nat) (sem : Env V → M V) (c : Nat) (s : Stmts)
    (v : Expr) (c' : Nat) : Prop where
  le : c ≤ c'
  ids : ∀ i ∈ s.ids, i ∈ bs ∨ (c ≤ i ∧ i < c')
  sem : ∀ env (k : V → Env V → M V), Dep G k →
    (runs S s env fun env' => do let x ← eval S v env'; k x env') = do let x ← sem env; k x env
  dep : isAtom v = true → ∀ env env' : Env V, Agree (G ++ s.ids) env env' → aval S v env = aval S v env'

structure SplitAll (S : Sem M V) (G : List Nat) (bs : List Nat) (sem : Env V → M (List V)) (c : Nat)
    (s : Stmts) (vs : Exprs) (c' : Nat) : Prop where
  le : c ≤ c'
  ids : ∀ i ∈ s.ids, i ∈ bs ∨ (c ≤ i ∧ i < c')
  sem : ∀ env (k : List V → Env V → M V), Dep G k →
    (runs S s env fun env' => do let x ← evals S vs env'; k x env') = do let x ← sem env; k x env

theorem peel_eval [LawfulMonad M] (S : Sem M V) (e : Expr) (env : Env V) :
    eval S e env = runs S (peel e).1 env fun env' => eval S (peel e).2 env' := by
  cases e <;> simp [peel, runs, eval]

theorem peel_block (s : Stmts) (e : Expr) : peel (.block s e) = (s, e) := rfl

theorem peel_prefix (s : Stmts) (e : Expr) (h : NotBlock e) : peel (withPrefix s e) = (s, e) := by
  cases s <;> simp [withPrefix, peel]
  cases e <;> simp_all [NotBlock]

theorem Split.whole [LawfulMonad M] {S : Sem M V} {G bs sem c c' e} 
    (h : Split S G bs sem c (peel e).1 (peel e).2 c') : eval S e = sem := by
  funext env
  have := h.sem env (fun x _ => pure x) (fun _ _ _ _ => rfl)
  simp only [bind_pure] at this
  rw [peel_eval, this]

theorem ids_outside {G bs c c' s} (ha : Apart G bs c) (hi : ∀ i ∈ Stmts.ids s, i ∈ bs ∨ (c ≤ i ∧ i < c')) :
    ∀ i ∈ G, i ∉ Stmts.ids s := by
  intro i hg hs
  rcases hi i hs with h | h
  · exact ha.disj i h hg
  · have := ha.glt i hg; omega

/-- `normalize_to_atom`. -/
theorem atomize_ok [LawfulMonad M] {S : Sem M V} {G bs sem c} {r : Expr × Nat} (ha : Apart G bs c)
    (h : Split S G bs sem c (peel r.1).1 (peel r.1).2 r.2) (hb : ∀ f : Pat, f = ⟨0, [r.2]⟩ → ∀ v,
      S.bind f v = pure fun _ => v) :
    Split S G bs sem c (atomize r).1 (atomize r).2.1 (atomize r).2.2 ∧ isAtom (atomize r).2.1 = true := by
  unfold atomize
  split
  · rename_i hat; exact ⟨h, hat⟩
  · refine ⟨⟨by have := h.le; simp only; omega, ?_, ?_, ?_⟩, rfl⟩
    · intro i hi
      simp only [ids_append, Stmts.ids, List.append_nil, List.mem_append, List.mem_singleton] at hi
      rcases hi with hi | rfl
      · rcases h.ids i hi with h | h
        · exact .inl h
        · exact .inr ⟨h.1, by simp only; omega⟩
      · exact .inr ⟨h.le, by simp⟩
    · intro env k hk
      simp only [runs_append, runs, eval, pure_bind]
      rw [← h.sem env k hk]
      congr 1; funext env'
      congr 1; funext v
      rw [hb _ rfl v, pure_bind]
      have h1 : (Env.set env' [r.2] fun _ => v) r.2 = v := by simp [Env.set]
      rw [h1]
      refine hk v _ _ fun i hi => ?_
      have h2 := ha.glt i hi
      have h3 := h.le
      have : i ≠ r.2 := by omega
      simp [Env.set, this]
    · intro _ env env' hag
      exact hag r.2 (by simp [ids_append, Stmts.ids])

theorem atoms_cons [LawfulMonad M] {S : Sem M V} {G : List Nat} {b1 b2 : List Nat} {sem1 sem2} {c c1 c2 s1 s2 a as}
    (ha : Apart G (b1 ++ b2) c) (h1 : Split S G b1 sem1 c s1 a c1) (hat : isAtom a = true)
    (h2 : SplitAll S G b2 sem2 c1 s2 as c2)
    (hd : ∀ env env' : Env V, Agree G env env' → sem2 env = sem2 env') :
    SplitAll S G (b1 ++ b2) (fun env => do let v ← sem1 env; let vs ← sem2 env; pure (v :: vs)) c
      (s1.append s2) (.cons a as) c2 := by
  refine ⟨by have := h1.le; have := h2.le; omega, ?_, ?_⟩
  · intro i hi
    rw [ids_append, List.mem_append] at hi
    have := h1.le; have := h2.le
    rcases hi with hi | hi
    · rcases h1.ids i hi with h | h
      · exact .inl (by simp [h])
      · exact .inr (by omega)
    · rcases h2.ids i hi with h | h
      · exact .inl (by simp [h])
      · exact .inr (by omega)
  · intro env k hk
    rw [runs_append]
    have hout : ∀ i ∈ G ++ s1.ids, i ∉ s2.ids := by
      intro i hi hs
      rcases List.mem_append.mp hi with hi | hi
      · exact ids_outside (ha.right.mono h1.le) h2.ids i hi hs
      · rcases h1.ids i hi with h | h <;> rcases h2.ids i hs with h' | h'
        · exact ha.sep i h h'
        · have := ha.left.lt i h; have := h1.le; omega
        · have := ha.right.lt i h'; omega
        · omega
    have step : ∀ env1 : Env V,
        (runs S s2 env1 fun env' => evals S (.cons a as) env' >>= fun x => k x env') =
        (eval S a env1 >>= fun v => sem2 env1 >>= fun vs => k (v :: vs) env1) := by
      intro env1
      have e1 : (runs S s2 env1 fun env' => evals S (.cons a as) env' >>= fun x => k x env') =
          runs S s2 env1 fun env' => evals S as env' >>= fun vs => k (aval S a env1 :: vs) env' := by
        apply runs_congr
        intro env' he
        simp only [evals, eval_atom S a env' hat, bind_assoc, pure_bind]
        rw [h1.dep hat env' env1 fun i hi => he i (hout i hi)]
      rw [e1, h2.sem env1 (fun vs env' => k (aval S a env1 :: vs) env') fun vs => hk _]
      simp only [eval_atom S a env1 hat, pure_bind]
    simp only [step]
    have := h1.sem env (fun v env1 => sem2 env1 >>= fun vs => k (v :: vs) env1) (by
      intro v e1 e2 h
      simp only
      rw [hd e1 e2 h]
      congr 1; funext vs
      exact hk _ _ _ h)
    rw [this]
    simp only [bind_assoc, pure_bind]

/-- An expression that evaluates its operands and then does `f`. -/
theorem split_all [LawfulMonad M] {S : Sem M V} {G bs sem c s as c'} (h : SplitAll S G bs sem c s as c')
    {e : Expr} {f : List V → M V} (hb : NotBlock e) (hat : isAtom e = false)
    (he : ∀ env, eval S e env = do let vs ← evals S as env; f vs) :
    Split S G bs (fun env => do let vs ← sem env; f vs) c (peel (withPrefix s e)).1
      (peel (withPrefix s e)).2 c' := by
  rw [peel_prefix _ _ hb]
  refine ⟨h.le, h.ids, ?_, fun ha => by simp [hat] at ha⟩
  intro env k hk
  simp only [he, bind_assoc]
  exact h.sem env (fun vs env' => f vs >>= fun x => k x env') fun vs e1 e2 h => by
    show (f vs >>= fun x => k x e1) = (f vs >>= fun x => k x e2)
    congr 1; funext x; exact hk _ _ _ h

/-- An expression that evaluates one operand and goes on depending on the environment. -/
theorem split_one [LawfulMonad M] {S : Sem M V} {G bs sem c s a c' c''} (h : Split S G bs sem c s a c')
    (hc : c' ≤ c'') {e : Expr} {f : V → Env V → M V} (hf : Dep G f) (hb : NotBlock e) (hat : isAtom e = false)
    (he : ∀ env, eval S e env = do let v ← eval S a env; f v env) :
    Split S G bs (fun env => do let v ← sem env; f v env) c (peel (withPrefix s e)).1
      (peel (withPrefix s e)).2 c'' := by
  rw [peel_prefix _ _ hb]
  refine ⟨by have := h.le; omega, ?_, ?_, fun ha => by simp [hat] at ha⟩
  · intro i hi
    rcases h.ids i hi with h | h
    · exact .inl h
    · exact .inr (by omega)
  · intro env k hk
    simp only [he, bind_assoc]
    exact h.sem env (fun v env' => f v env' >>= fun x => k x env') fun v e1 e2 h => by
      show (f v e1 >>= fun x => k x e1) = (f v e2 >>= fun x => k x e2)
      rw [hf v e1 e2 h]
      congr 1; funext x; exact hk _ _ _ h

theorem Split.bigger {S : Sem M V} {G bs bs' sem c s v c'} (h : Split S G bs sem c s v c')
    (hb : ∀ i ∈ bs, i ∈ bs') : Split S G bs' sem c s v c' :=
  ⟨h.le, fun i hi => (h.ids i hi).imp_left (hb i), h.sem, h.dep⟩

theorem Split.congr {S : Sem M V} {G bs sem sem' c s v c'} (h : Split S G bs sem c s v c')
    (he : ∀ env, sem' env = sem env) : Split S G bs sem' c s v c' :=
  ⟨h.le, h.ids, fun env k hk => by rw [he]; exact h.sem env k hk, h.dep⟩

/-- What has no statements of its own. -/
theorem split_leaf [LawfulMonad M] {S : Sem M V} {G bs sem c e c'} (hc : c ≤ c') (hb : NotBlock e)
    (he : eval S e = sem)
    (hd : isAtom e = true → ∀ env env' : Env V, Agree G env env' → aval S e env = aval S e env') :
    Split S G bs sem c (peel e).1 (peel e).2 c' := by
  have hp : peel e = (.nil, e) := by cases e <;> simp_all [peel, NotBlock]
  rw [hp]
  exact ⟨hc, fun i hi => by simp [Stmts.ids] at hi, fun env k _ => by simp only [runs, he],
    fun ha env env' h => hd ha env env' (by simpa [Stmts.ids] using h)⟩

theorem atom_agree [LawfulMonad M] (S : Sem M V) (G : List Nat) (e : Expr) (hs : Scoped G e) (h : isAtom e = true)
    (env env' : Env V) (ha : Agree G env env') : aval S e env = aval S e env' := by
  match e with
  | .var i => exact ha i (by simpa [Scoped] using hs)
  | .global _ => rfl
  | .lit _ => rfl
  | .lambda ps b =>
    simp only [aval]
    congr 1; funext f
    exact eval_agree S _ b _ _ (by simpa [Scoped] using hs) (ha.set ps f)

theorem runs_bind [LawfulMonad M] (S : Sem M V) : ∀ (s : Stmts) (env : Env V) (k : Env V → M V) (f : V → M V),
    (runs S s env k >>= f) = runs S s env fun env' => k env' >>= f
  | .nil, _, _, _ => by simp only [runs]
  | .bind p e s, env, k, f => by simp only [runs, bind_assoc, runs_bind S s]
  | .run e s, env, k, f => by simp only [runs, bind_assoc, runs_bind S s]

theorem ids_binders : ∀ (ss : Stmts), ∀ i ∈ ss.ids, i ∈ bindersStmts ss
  | .nil, i, h => by simp [Stmts.ids] at h
  | .bind p e ss, i, h => by
    simp only [Stmts.ids, bindersStmts, List.mem_append] at h ⊢
    rcases h with h | h
    · exact .inl h
    · exact .inr (.inr (ids_binders ss i h))
  | .run e ss, i, h => by
    simp only [Stmts.ids, bindersStmts, List.mem_append] at h ⊢
    exact .inr (ids_binders ss i h)

theorem sub_ids : ∀ (ss : Stmts) (c i : Nat), i ∈ ss.ids → i ∈ (normStmts ss c).1.ids
  | .nil, _, _, h => by simp [Stmts.ids] at h
  | .bind p e ss, c, i, h => by
    simp only [Stmts.ids, normStmts, ids_append, List.mem_append] at h ⊢
    rcases h with h | h
    · exact .inr (.inl h)
    · exact .inr (.inr (sub_ids ss _ i h))
  | .run e ss, c, i, h => by
    simp only [Stmts.ids, normStmts, ids_append, List.mem_append] at h ⊢
    exact .inr (sub_ids ss _ i h)

/-- The temporaries are bound by a plain name. -/
def TempOk (S : Sem M V) : Prop := ∀ i v, S.bind ⟨0, [i]⟩ v = pure fun _ => v

mutual
theorem norm_ok [LawfulMonad M] (S : Sem M V) (hS : TempOk S) (G : List Nat) (e : Expr) (c : Nat)
    (hs : Scoped G e) (ha : Apart G (binders e) c) :
    Split S G (binders e) (eval S e) c (peel (norm e c).1).1 (peel (norm e c).1).2 (norm e c).2 := by
  match e with
  | .var i => exact split_leaf (Nat.le_refl _) trivial rfl fun h => atom_agree S G _ hs h
  | .global _ => exact split_leaf (Nat.le_refl _) trivial rfl fun h => atom_agree S G _ hs h
  | .lit _ => exact split_leaf (Nat.le_refl _) trivial rfl fun h => atom_agree S G _ hs h
  | .lambda ps b =>
    simp only [binders] at ha
    have hs' := hs
    simp only [Scoped] at hs
    have ih := norm_ok S hS (G ++ ps) b c hs ha.enter
    have he := ih.whole
    simp only [norm]
    refine split_leaf ih.le trivial ?_ ?_
    · funext env; simp only [eval]; rw [he]
    · intro _ env env' hag
      simp only [aval]
      congr 1; funext f
      rw [he]
      exact eval_agree S _ b _ _ hs (hag.set ps f)
  | .call f as =>
    simp only [binders] at ha ⊢
    simp only [Scoped] at hs
    have h1 := atomize_ok ha.left (norm_ok S hS G f c hs.1 ha.left) (by rintro _ rfl v; exact hS _ v)
    have h2 := atoms_ok S hS G as _ hs.2 (ha.right.mono h1.1.le)
    have h3 := split_all (atoms_cons ha h1.1 h1.2 h2 fun e1 e2 h => evals_agree S G as e1 e2 hs.2 h)
      (e := .call (atomize (norm f c)).2.1 (normAtoms as (atomize (norm f c)).2.2).2.1)
      (f := fun vs => match vs with | v :: vs => S.call v vs | [] => S.tuple []) trivial rfl
      (fun env => by simp only [eval, evals, bind_assoc, pure_bind])
    exact h3.congr fun env => by simp only [eval, bind_assoc, pure_bind]
  | .method r m as =>
    simp only [binders] at ha ⊢
    simp only [Scoped] at hs
    have h1 := atomize_ok ha.left (norm_ok S hS G r c hs.1 ha.left) (by rintro _ rfl v; exact hS _ v)
    have h2 := atoms_ok S hS G as _ hs.2 (ha.right.mono h1.1.le)
    have h3 := split_all (atoms_cons ha h1.1 h1.2 h2 fun e1 e2 h => evals_agree S G as e1 e2 hs.2 h)
      (e := .method (atomize (norm r c)).2.1 m (normAtoms as (atomize (norm r c)).2.2).2.1)
      (f := fun vs => match vs with | v :: vs => S.method v m vs | [] => S.tuple []) trivial rfl
      (fun env => by simp only [eval, evals, bind_assoc, pure_bind])
    exact h3.congr fun env => by simp only [eval, bind_assoc, pure_bind]
  | .recordWith t sp ns as =>
    simp only [binders] at ha ⊢
    simp only [Scoped] at hs
    have h1 := atomize_ok ha.left (norm_ok S hS G sp c hs.1 ha.left) (by rintro _ rfl v; exact hS _ v)
    have h2 := atoms_ok S hS G as _ hs.2 (ha.right.mono h1.1.le)
    have h3 := split_all (atoms_cons ha h1.1 h1.2 h2 fun e1 e2 h => evals_agree S G as e1 e2 hs.2 h)
      (e := .recordWith t (atomize (norm sp c)).2.1 ns (normAtoms as (atomize (norm sp c)).2.2).2.1)
      (f := fun vs => match vs with | v :: vs => S.record t ns vs (some v) | [] => S.tuple []) trivial rfl
      (fun env => by simp only [eval, evals, bind_assoc, pure_bind])
    exact h3.congr fun env => by simp only [eval, bind_assoc, pure_bind]
  | .cons k as =>
    simp only [binders] at ha ⊢
    simp only [Scoped] at hs
    exact (split_all (atoms_ok S hS G as c hs ha) (e := .cons k (normAtoms as c).2.1) (f := S.cons k) trivial rfl
      fun env => by simp only [eval]).congr fun env => by simp only [eval]
  | .tuple as =>
    simp only [binders] at ha ⊢
    simp only [Scoped] at hs
    exact (split_all (atoms_ok S hS G as c hs ha) (e := .tuple (normAtoms as c).2.1) (f := S.tuple) trivial rfl
      fun env => by simp only [eval]).congr fun env => by simp only [eval]
  | .list as =>
    simp only [binders] at ha ⊢
    simp only [Scoped] at hs
    exact (split_all (atoms_ok S hS G as c hs ha) (e := .list (normAtoms as c).2.1) (f := S.list) trivial rfl
      fun env => by simp only [eval]).congr fun env => by simp only [eval]
  | .record t ns as =>
    simp only [binders] at ha ⊢
    simp only [Scoped] at hs
    exact (split_all (atoms_ok S hS G as c hs ha) (e := .record t ns (normAtoms as c).2.1) (f := fun vs => S.record t ns vs none) trivial rfl
      fun env => by simp only [eval]).congr fun env => by simp only [eval]
  | .and l r =>
    simp only [binders] at ha ⊢
    simp only [Scoped] at hs
    have h1 := atomize_ok ha.left (norm_ok S hS G l c hs.1 ha.left) (by rintro _ rfl v; exact hS _ v)
    have h2 := norm_ok S hS G r _ hs.2 (ha.right.mono h1.1.le)
    exact (split_one h1.1 h2.le (e := .and _ _)
      (f := fun v env => if S.truth v then eval S r env else pure (S.bool false))
      (fun v e1 e2 h => by simp only [eval_agree S G r e1 e2 hs.2 h]) trivial rfl
      (fun env => by simp only [eval]; rw [h2.whole])).bigger (by simp +contextual)
  | .or l r =>
    simp only [binders] at ha ⊢
    simp only [Scoped] at hs
    have h1 := atomize_ok ha.left (norm_ok S hS G l c hs.1 ha.left) (by rintro _ rfl v; exact hS _ v)
    have h2 := norm_ok S hS G r _ hs.2 (ha.right.mono h1.1.le)
    exact (split_one h1.1 h2.le (e := .or _ _)
      (f := fun v env => if S.truth v then pure (S.bool true) else eval S r env)
      (fun v e1 e2 h => by simp only [eval_agree S G r e1 e2 hs.2 h]) trivial rfl
      (fun env => by simp only [eval]; rw [h2.whole])).bigger (by simp +contextual)
  | .cases s as =>
    simp only [binders] at ha ⊢
    simp only [Scoped] at hs
    have h1 := atomize_ok ha.left (norm_ok S hS G s c hs.1 ha.left) (by rintro _ rfl v; exact hS _ v)
    have h2 := arms_ok S hS G as _ hs.2 (ha.right.mono h1.1.le)
    exact (split_one h1.1 h2.1 (e := .cases _ _) (f := fun v env => evalArms S as v env)
      (fun v e1 e2 h => arms_agree S G as v e1 e2 hs.2 h) trivial rfl
      (fun env => by simp only [eval]; rw [h2.2])).bigger (by simp +contextual)
  | .resume k a =>
    simp only [binders] at ha ⊢
    simp only [Scoped] at hs
    have h1 := atomize_ok ha (norm_ok S hS G a c hs.2 ha) (by rintro _ rfl v; exact hS _ v)
    exact split_one h1.1 (Nat.le_refl _) (e := .resume k _) (f := fun v env => S.resume (env k) v)
      (fun v e1 e2 h => by simp only [h k hs.1]) trivial rfl (fun env => by simp only [eval])
  | .handle b hs' =>
    simp only [binders] at ha ⊢
    simp only [Scoped] at hs
    have h1 := norm_ok S hS G b c hs.1 ha.left
    have h2 := handlers_ok S hS G hs' _ hs.2 (ha.right.mono h1.le)
    simp only [norm]
    refine split_leaf (Nat.le_trans h1.le h2.1) trivial ?_ (fun h => by simp [isAtom] at h)
    funext env; simp only [eval]; rw [h1.whole, h2.2]
  | .block ss e =>
    simp only [binders] at ha ⊢
    simp only [Scoped] at hs
    have h1 := stmts_ok S hS G ss c hs.1 ha.left
    have hae : Apart (G ++ ss.ids) (binders e) (normStmts ss c).2 := by
      refine ⟨ha.right.nodup, fun i hi hg => ?_, (ha.right.mono h1.1).lt, fun i hi => ?_⟩
      · rcases List.mem_append.mp hg with hg | hg
        · exact ha.right.disj i hi hg
        · exact ha.sep i (ids_binders ss i hg) hi
      · have := h1.1
        rcases List.mem_append.mp hi with hi | hi
        · have := ha.glt i hi; omega
        · have := ha.left.lt i (ids_binders ss i hi); omega
    have h2 := norm_ok S hS (G ++ ss.ids) e _ hs.2 hae
    simp only [norm, peel_block]
    refine ⟨Nat.le_trans h1.1 h2.le, ?_, ?_, ?_⟩
    · intro i hi
      rw [ids_append, List.mem_append] at hi
      have := h1.1; have := h2.le
      rcases hi with hi | hi
      · rcases h1.2.1 i hi with h | h
        · exact .inl (by simp [h])
        · exact .inr (by omega)
      · rcases h2.ids i hi with h | h
        · exact .inl (by simp [h])
        · exact .inr (by omega)
    · intro env k hk
      rw [runs_append]
      have hk' : Dep (G ++ ss.ids) k := fun v e1 e2 h => hk v e1 e2 (h.mono fun i hi => by simp [hi])
      have e1 : (fun env' => runs S (peel (norm e (normStmts ss c).2).1).1 env' fun env' =>
          eval S (peel (norm e (normStmts ss c).2).1).2 env' >>= fun x => k x env') =
          fun env' => eval S e env' >>= fun x => k x env' := funext fun env' => h2.sem env' k hk'
      rw [e1, h1.2.2 env (fun env' => eval S e env' >>= fun x => k x env') (by
        intro e1 e2 h
        rw [eval_agree S _ e e1 e2 hs.2 h]
        congr 1; funext x; exact hk' _ _ _ h)]
      simp only [eval]
      rw [runs_bind]
      apply runs_congr
      intro env' he
      congr 1; funext x
      exact hk _ _ _ fun i hi => he i fun hm => ha.left.disj i (ids_binders ss i hm) hi
    · intro hat env env' hag
      refine h2.dep hat env env' (hag.mono fun i hi => ?_)
      have := sub_ids ss c i
      simp only [ids_append, List.mem_append] at hi ⊢
      tauto
theorem atoms_ok [LawfulMonad M] (S : Sem M V) (hS : TempOk S) (G : List Nat) (es : Exprs) (c : Nat)
    (hs : ScopedAll G es) (ha : Apart G (bindersAll es) c) :
    SplitAll S G (bindersAll es) (evals S es) c (normAtoms es c).1 (normAtoms es c).2.1
      (normAtoms es c).2.2 := by
  match es with
  | .nil =>
    exact ⟨Nat.le_refl _, fun i hi => by simp [normAtoms, Stmts.ids] at hi,
      fun env k _ => by simp only [normAtoms, runs]⟩
  | .cons e es =>
    simp only [bindersAll] at ha ⊢
    simp only [ScopedAll] at hs
    have h1 := atomize_ok ha.left (norm_ok S hS G e c hs.1 ha.left) (by rintro _ rfl v; exact hS _ v)
    have h2 := atoms_ok S hS G es _ hs.2 (ha.right.mono h1.1.le)
    exact atoms_cons ha h1.1 h1.2 h2 fun e1 e2 h => evals_agree S G es e1 e2 hs.2 h
theorem stmts_ok [LawfulMonad M] (S : Sem M V) (hS : TempOk S) (G : List Nat) (ss : Stmts) (c : Nat)
    (hs : ScopedStmts G ss) (ha : Apart G (bindersStmts ss) c) :
    c ≤ (normStmts ss c).2 ∧
    (∀ i ∈ (normStmts ss c).1.ids, i ∈ bindersStmts ss ∨ (c ≤ i ∧ i < (normStmts ss c).2)) ∧
    ∀ env (k : Env V → M V), (∀ e1 e2, Agree (G ++ ss.ids) e1 e2 → k e1 = k e2) →
      runs S (normStmts ss c).1 env k = runs S ss env k := by
  match ss with
  | .nil =>
    exact ⟨Nat.le_refl _, fun i hi => by simp [normStmts, Stmts.ids] at hi, fun _ _ _ => rfl⟩
  | .bind p e ss =>
    simp only [bindersStmts] at ha ⊢
    simp only [ScopedStmts] at hs
    have h1 := norm_ok S hS G e c hs.1 ha.right.left
    have hr : Apart (G ++ p.ids) (bindersStmts ss) (norm e c).2 := by
      refine ⟨ha.right.right.nodup, fun i hi hg => ?_, (ha.right.right.mono h1.le).lt, fun i hi => ?_⟩
      · rcases List.mem_append.mp hg with hg | hg
        · exact ha.right.right.disj i hi hg
        · exact ha.sep i hg (by simp [hi])
      · have := h1.le
        rcases List.mem_append.mp hi with hi | hi
        · have := ha.glt i hi; omega
        · have := ha.left.lt i hi; omega
    have h2 := stmts_ok S hS (G ++ p.ids) ss _ hs.2 hr
    simp only [normStmts]
    refine ⟨Nat.le_trans h1.le h2.1, ?_, ?_⟩
    · intro i hi
      simp only [ids_append, Stmts.ids, List.mem_append] at hi
      have := h1.le; have := h2.1
      rcases hi with hi | hi | hi
      · rcases h1.ids i hi with h | h
        · exact .inl (by simp [h])
        · exact .inr (by omega)
      · exact .inl (by simp [hi])
      · rcases h2.2.1 i hi with h | h
        · exact .inl (by simp [h])
        · exact .inr (by omega)
    · intro env k hk
      have hk' : ∀ e1 e2, Agree (G ++ p.ids ++ ss.ids) e1 e2 → k e1 = k e2 := fun e1 e2 h =>
        hk e1 e2 (by simpa [Stmts.ids] using h)
      rw [runs_append]
      simp only [runs, h2.2.2 _ k hk']
      exact h1.sem env (fun v env' => S.bind p v >>= fun f => runs S ss (Env.set env' p.ids f) k)
        fun v e1 e2 h => by
          show (S.bind p v >>= fun f => runs S ss (Env.set e1 p.ids f) k) =
            (S.bind p v >>= fun f => runs S ss (Env.set e2 p.ids f) k)
          congr 1; funext f
          exact runs_agree S _ ss _ _ k k hs.2 (h.set p.ids f) hk'
  | .run e ss =>
    simp only [bindersStmts] at ha ⊢
    simp only [ScopedStmts] at hs
    have h1 := norm_ok S hS G e c hs.1 ha.left
    have h2 := stmts_ok S hS G ss _ hs.2 (ha.right.mono h1.le)
    simp only [normStmts]
    refine ⟨Nat.le_trans h1.le h2.1, ?_, ?_⟩
    · intro i hi
      simp only [ids_append, Stmts.ids, List.mem_append] at hi
      have := h1.le; have := h2.1
      rcases hi with hi | hi
      · rcases h1.ids i hi with h | h
        · exact .inl (by simp [h])
        · exact .inr (by omega)
      · rcases h2.2.1 i hi with h | h
        · exact .inl (by simp [h])
        · exact .inr (by omega)
    · intro env k hk
      have hk' : ∀ e1 e2, Agree (G ++ ss.ids) e1 e2 → k e1 = k e2 := fun e1 e2 h =>
        hk e1 e2 (by simpa [Stmts.ids] using h)
      rw [runs_append]
      simp only [runs, h2.2.2 _ k hk']
      exact h1.sem env (fun _ env' => runs S ss env' k)
        fun v e1 e2 h => runs_agree S _ ss _ _ k k hs.2 h hk'
theorem arms_ok [LawfulMonad M] (S : Sem M V) (hS : TempOk S) (G : List Nat) (as : Arms) (c : Nat)
    (hs : ScopedArms G as) (ha : Apart G (bindersArms as) c) :
    c ≤ (normArms as c).2 ∧ evalArms S (normArms as c).1 = evalArms S as := by
  match as with
  | .nil => exact ⟨Nat.le_refl _, rfl⟩
  | .arm p b as =>
    simp only [bindersArms] at ha
    simp only [ScopedArms] at hs
    have h1 := norm_ok S hS (G ++ p.ids) b c hs.1 ha.left.enter
    have h2 := arms_ok S hS G as _ hs.2 (ha.right.mono h1.le)
    simp only [normArms]
    refine ⟨Nat.le_trans h1.le h2.1, ?_⟩
    funext v env
    simp only [evalArms]
    rw [h2.2, h1.whole]
  | .guarded p g b as =>
    simp only [bindersArms] at ha
    simp only [ScopedArms] at hs
    have h0 := norm_ok S hS (G ++ p.ids) g c hs.1 ha.left.enter.left
    have h1 := norm_ok S hS (G ++ p.ids) b _ hs.2.1 (ha.left.enter.right.mono h0.le)
    have h2 := arms_ok S hS G as _ hs.2.2 (ha.right.mono (Nat.le_trans h0.le h1.le))
    simp only [normArms]
    refine ⟨Nat.le_trans (Nat.le_trans h0.le h1.le) h2.1, ?_⟩
    funext v env
    simp only [evalArms]
    rw [h2.2, h1.whole, h0.whole]
theorem handlers_ok [LawfulMonad M] (S : Sem M V) (hS : TempOk S) (G : List Nat) (hs' : Handlers) (c : Nat)
    (hs : ScopedHandlers G hs') (ha : Apart G (bindersHandlers hs') c) :
    c ≤ (normHandlers hs' c).2 ∧ evalHandlers S (normHandlers hs' c).1 = evalHandlers S hs' := by
  match hs' with
  | .nil => exact ⟨Nat.le_refl _, rfl⟩
  | .on op ids b rest =>
    simp only [bindersHandlers] at ha
    simp only [ScopedHandlers] at hs
    have h1 := norm_ok S hS (G ++ ids) b c hs.1 ha.left.enter
    have h2 := handlers_ok S hS G rest _ hs.2 (ha.right.mono h1.le)
    simp only [normHandlers]
    refine ⟨Nat.le_trans h1.le h2.1, ?_⟩
    funext env
    simp only [evalHandlers]
    rw [h2.2, h1.whole]
end

end Verif.Normalize
