import Verif.Normalize.Shape
/-!
# C67, C68, C69: normalisation before the lowering of effects
-/
namespace Verif.Normalize

variable {M : Type → Type} {V : Type} [Monad M]

/-! ## C67: normalisation preserves meaning -/

/-- Whatever effects there are and whatever the other constructs mean, a normalised expression does
what the expression does: the same operands in the same order, each once, with the same result. The
locals of the expression are bound once and are in scope where they are used, as the resolver leaves
them, and are below the counter from which temporaries are taken. -/
theorem C67_meaning [LawfulMonad M] (S : Sem M V) (hS : ∀ i v, S.bind ⟨0, [i]⟩ v = pure fun _ => v)
    (G : List Nat) (e : Expr) (c : Nat) (hs : Scoped G e) (ha : Apart G (binders e) c) (env : Env V) :
    eval S (norm e c).1 env = eval S e env :=
  congrFun (norm_ok S hS G e c hs ha).whole env

/-- Names that are in use are not reused: the counter only grows. -/
theorem C67_counter (e : Expr) (G : List Nat) (c : Nat) (hs : Scoped G e) (ha : Apart G (binders e) c) :
    c ≤ (norm e c).2 :=
  (norm_ok (M := Id) (V := Unit) ⟨fun _ => (), fun _ => (), fun _ _ => (), fun _ _ => (), fun _ _ => (),
    fun _ => (), fun _ => (), fun _ _ _ _ => (), fun _ _ _ => (), fun _ => true, fun _ => (),
    fun _ _ _ => (), fun _ _ => none, fun _ => (), fun _ _ => (), fun _ _ => ()⟩
    (fun _ _ => rfl) G e c hs ha).le

/-- Values are numbers; calling one adds it, and what it is given, to a log. -/
def logSem : Sem (StateM (List (Nat × List Nat))) Nat where
  lit := fun l => l
  global := fun g => g
  lam := fun ps _ => ps.length
  call := fun f as => modifyGet fun l => (f + as.length, (f, as) :: l)
  cons := fun k _ => pure k
  tuple := fun vs => pure vs.length
  list := fun vs => pure vs.length
  record := fun _ _ vs _ => pure vs.length
  method := fun r m as => modifyGet fun l => (m, (r, as) :: l)
  truth := fun v => v != 0
  bool := fun b => if b then 1 else 0
  bind := fun _ v => pure fun _ => v
  test := fun p v => pure (if p.shape = v then some fun _ => v else none)
  noArm := fun _ => pure 0
  handle := fun m _ => m
  resume := fun _ v => pure v

/-- `f({ let x1 = g()  h(x1) }, x0 && k(m()))`, where `x0` is a parameter. -/
def sample : Expr :=
  .call (.global 10) (.cons (.block (.bind ⟨5, [1]⟩ (.call (.global 11) .nil) .nil)
    (.call (.global 12) (.cons (.var 1) .nil)))
    (.cons (.and (.var 0) (.call (.global 13) (.cons (.call (.global 14) .nil) .nil))) .nil))

theorem sample_scoped : Scoped [0] sample := by
  simp [sample, Scoped, ScopedAll, ScopedStmts, Stmts.ids]

theorem sample_apart : Apart [0] (binders sample) 100 := by
  have h : binders sample = [1] := rfl
  rw [h]
  exact ⟨by simp, by simp, by simp, by simp⟩

example (env : Env Nat) : eval logSem (norm sample 100).1 env = eval logSem sample env :=
  C67_meaning logSem (fun _ _ => rfl) [0] sample 100 sample_scoped sample_apart env

/-- Its normal form: `let x1 = g()  let t100 = h(x1)  let t102 = x0 && { let t101 = m()  k(t101) }
f(t100, t102)`. -/
example : norm sample 100 = (.block
    (.bind ⟨5, [1]⟩ (.call (.global 11) .nil)
    (.bind ⟨0, [100]⟩ (.call (.global 12) (.cons (.var 1) .nil))
    (.bind ⟨0, [102]⟩ (.and (.var 0) (.block (.bind ⟨0, [101]⟩ (.call (.global 14) .nil) .nil)
      (.call (.global 13) (.cons (.var 101) .nil)))) .nil)))
    (.call (.global 10) (.cons (.var 100) (.cons (.var 102) .nil))), 103) := rfl

/-! ## C68: the result is in normal form -/

/-- Strict operands are names, literals or functions, and blocks stand only at the roots of bodies. -/
theorem C68_normal (e : Expr) (c : Nat) : Normal (norm e c).1 := (norm_shape e c).root

/-- The check the compiler makes of it in debug builds does not fail. -/
theorem C68_validates (e : Expr) (c : Nat) : validRoot (norm e c).1 = true :=
  root_valid _ (C68_normal e c)

/-- Normalising again changes nothing and takes no names. -/
theorem C68_idempotent (e : Expr) (c c' : Nat) : norm (norm e c).1 c' = ((norm e c).1, c') :=
  norm_fix _ c' (C68_normal e c)

example : validRoot sample = false ∧ validRoot (norm sample 100).1 = true := by decide +kernel

/-! ## C69: order of evaluation in record expressions -/

/-- Without a spread, or with the spread first, a record expression evaluates its parts in the order in
which they are written.

What is missing: the same with the spread anywhere, which `C69_order_violated` shows to be false. -/
theorem C69_order_partial [LawfulMonad M] (S : Sem M V) (ty : Nat) (fs : List (Nat × Expr))
    (sp : Option Expr) (env : Env V) :
    let ps := (sp.map Part.spread).toList ++ fs.map fun f => Part.field f.1 f.2
    eval S (recordExpr ty ps) env = (do let r ← evalParts S ps env; S.record ty r.1 r.2.1 r.2.2) := by
  have hf : ∀ fs : List (Nat × Expr), (recordParts (fs.map fun f => Part.field f.1 f.2)).2.2 = none ∧
      evalParts S (fs.map fun f => Part.field f.1 f.2) env =
        (do let vs ← evals S (recordParts (fs.map fun f => Part.field f.1 f.2)).2.1 env
            pure ((recordParts (fs.map fun f => Part.field f.1 f.2)).1, vs, none)) := by
    intro fs
    induction fs with
    | nil => simp [recordParts, evalParts, evals]
    | cons f fs ih =>
      simp only [List.map_cons, recordParts, evalParts, evals]
      exact ⟨ih.1, by rw [ih.2]; simp only [bind_assoc, pure_bind]⟩
  cases sp with
  | none =>
    simp only [Option.map_none, Option.toList_none, List.nil_append, recordExpr, (hf fs).1, (hf fs).2, eval,
      bind_assoc, pure_bind]
  | some s =>
    simp only [Option.map_some, Option.toList_some, List.cons_append, List.nil_append, recordExpr, recordParts,
      (hf fs).1, Option.none_or, evalParts, (hf fs).2, eval, bind_assoc, pure_bind]

/-- `P { x: f(), ..g() }` calls `g` before `f`. -/
theorem C69_order_violated :
    let ps := [Part.field 0 (.call (.global 1) .nil), Part.spread (.call (.global 2) .nil)]
    (eval logSem (recordExpr 7 ps) (fun _ => 0)).run [] = (1, [(1, []), (2, [])]) ∧
    ((do let r ← evalParts logSem ps (fun _ => 0); logSem.record 7 r.1 r.2.1 r.2.2) :
      StateM _ Nat).run [] = (1, [(2, []), (1, [])]) := ⟨rfl, rfl⟩

/-- `P { ..g(), x: f() }` does as it is written. -/
example :
    let ps := [Part.spread (.call (.global 2) .nil), Part.field 0 (.call (.global 1) .nil)]
    (eval logSem (recordExpr 7 ps) (fun _ => 0)).run [] = (1, [(1, []), (2, [])]) := rfl

end Verif.Normalize
