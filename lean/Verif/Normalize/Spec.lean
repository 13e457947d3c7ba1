import Verif.Normalize.Model
import Mathlib.Data.List.Nodup
/-!
# What expressions mean

The meaning of an expression is given in an arbitrary monad: any kind of state, exceptions,
nontermination or control effects. `Sem` is what the constructs that this pass does not look into mean;
the meaning of each construct is compositional and evaluates its operands from left to right (the spread
of a record before its fields).
-/
namespace Verif.Normalize

structure Sem (M : Type → Type) (V : Type) where
  lit : Nat → V
  global : Nat → V
  /-- A function of the values of its parameters. -/
  lam : List Nat → ((Nat → V) → M V) → V
  call : V → List V → M V
  cons : Nat → List V → M V
  tuple : List V → M V
  list : List V → M V
  record : Nat → List Nat → List V → Option V → M V
  method : V → Nat → List V → M V
  truth : V → Bool
  bool : Bool → V
  /-- Binding in a `let`, and the test of an arm: the values of the locals of the pattern. -/
  bind : Pat → V → M (Nat → V)
  test : Pat → V → M (Option (Nat → V))
  noArm : V → M V
  /-- A handler of operations around a computation. -/
  handle : M V → List (Nat × List Nat × ((Nat → V) → M V)) → M V
  resume : V → V → M V

variable {M : Type → Type} {V : Type} [Monad M]

abbrev Env (V : Type) := Nat → V

/-- The environment with the values `f` for `ids`. -/
def Env.set (env : Env V) (ids : List Nat) (f : Nat → V) : Env V :=
  fun i => if i ∈ ids then f i else env i

mutual
def eval (S : Sem M V) : Expr → Env V → M V
  | .var i, env => pure (env i)
  | .global g, _ => pure (S.global g)
  | .lit l, _ => pure (S.lit l)
  | .lambda ps b, env => pure (S.lam ps fun f => eval S b (env.set ps f))
  | .call f as, env => do let fv ← eval S f env; let vs ← evals S as env; S.call fv vs
  | .cons k as, env => do let vs ← evals S as env; S.cons k vs
  | .tuple as, env => do let vs ← evals S as env; S.tuple vs
  | .list as, env => do let vs ← evals S as env; S.list vs
  | .record t ns as, env => do let vs ← evals S as env; S.record t ns vs none
  | .recordWith t sp ns as, env => do
    let s ← eval S sp env; let vs ← evals S as env; S.record t ns vs (some s)
  | .and l r, env => do
    let v ← eval S l env; if S.truth v then eval S r env else pure (S.bool false)
  | .or l r, env => do
    let v ← eval S l env; if S.truth v then pure (S.bool true) else eval S r env
  | .block ss e, env => runs S ss env (eval S e)
  | .cases s as, env => do let v ← eval S s env; evalArms S as v env
  | .handle b hs, env => S.handle (eval S b env) (evalHandlers S hs env)
  | .resume k a, env => do let v ← eval S a env; S.resume (env k) v
  | .method r m as, env => do let rv ← eval S r env; let vs ← evals S as env; S.method rv m vs
def evals (S : Sem M V) : Exprs → Env V → M (List V)
  | .nil, _ => pure []
  | .cons e es, env => do let v ← eval S e env; let vs ← evals S es env; pure (v :: vs)
/-- The statements, and then `k` in the environment they leave. -/
def runs (S : Sem M V) : Stmts → Env V → (Env V → M V) → M V
  | .nil, env, k => k env
  | .bind p e ss, env, k => do
    let v ← eval S e env; let f ← S.bind p v; runs S ss (env.set p.ids f) k
  | .run e ss, env, k => do let _ ← eval S e env; runs S ss env k
/-- The first arm whose pattern matches and whose guard holds. -/
def evalArms (S : Sem M V) : Arms → V → Env V → M V
  | .nil, v, _ => S.noArm v
  | .arm p b as, v, env => do
    let r ← S.test p v
    match r with
    | some f => eval S b (env.set p.ids f)
    | none => evalArms S as v env
  | .guarded p g b as, v, env => do
    let r ← S.test p v
    match r with
    | some f => do
      let t ← eval S g (env.set p.ids f)
      if S.truth t then eval S b (env.set p.ids f) else evalArms S as v env
    | none => evalArms S as v env
def evalHandlers (S : Sem M V) : Handlers → Env V → List (Nat × List Nat × ((Nat → V) → M V))
  | .nil, _ => []
  | .on op ids b hs, env => (op, ids, fun f => eval S b (env.set ids f)) :: evalHandlers S hs env
end

/-! ## Programs as the resolver leaves them: locals in scope, each bound once -/

/-- The locals statements bind. -/
def Stmts.ids : Stmts → List Nat
  | .nil => []
  | .bind p _ ss => p.ids ++ ss.ids
  | .run _ ss => ss.ids

mutual
/-- Every local is used where it is in scope. -/
def Scoped (G : List Nat) : Expr → Prop
  | .var i => i ∈ G
  | .global _ => True
  | .lit _ => True
  | .lambda ps b => Scoped (G ++ ps) b
  | .call f as => Scoped G f ∧ ScopedAll G as
  | .cons _ as => ScopedAll G as
  | .tuple as => ScopedAll G as
  | .list as => ScopedAll G as
  | .record _ _ as => ScopedAll G as
  | .recordWith _ s _ as => Scoped G s ∧ ScopedAll G as
  | .and l r => Scoped G l ∧ Scoped G r
  | .or l r => Scoped G l ∧ Scoped G r
  | .block ss e => ScopedStmts G ss ∧ Scoped (G ++ ss.ids) e
  | .cases s as => Scoped G s ∧ ScopedArms G as
  | .handle b hs => Scoped G b ∧ ScopedHandlers G hs
  | .resume k a => k ∈ G ∧ Scoped G a
  | .method r _ as => Scoped G r ∧ ScopedAll G as
def ScopedAll (G : List Nat) : Exprs → Prop
  | .nil => True
  | .cons e es => Scoped G e ∧ ScopedAll G es
def ScopedStmts (G : List Nat) : Stmts → Prop
  | .nil => True
  | .bind p e ss => Scoped G e ∧ ScopedStmts (G ++ p.ids) ss
  | .run e ss => Scoped G e ∧ ScopedStmts G ss
def ScopedArms (G : List Nat) : Arms → Prop
  | .nil => True
  | .arm p b as => Scoped (G ++ p.ids) b ∧ ScopedArms G as
  | .guarded p g b as => Scoped (G ++ p.ids) g ∧ Scoped (G ++ p.ids) b ∧ ScopedArms G as
def ScopedHandlers (G : List Nat) : Handlers → Prop
  | .nil => True
  | .on _ ids b hs => Scoped (G ++ ids) b ∧ ScopedHandlers G hs
end

mutual
/-- The locals bound anywhere in the expression. -/
def binders : Expr → List Nat
  | .var _ => []
  | .global _ => []
  | .lit _ => []
  | .lambda ps b => ps ++ binders b
  | .call f as => binders f ++ bindersAll as
  | .cons _ as => bindersAll as
  | .tuple as => bindersAll as
  | .list as => bindersAll as
  | .record _ _ as => bindersAll as
  | .recordWith _ s _ as => binders s ++ bindersAll as
  | .and l r => binders l ++ binders r
  | .or l r => binders l ++ binders r
  | .block ss e => bindersStmts ss ++ binders e
  | .cases s as => binders s ++ bindersArms as
  | .handle b hs => binders b ++ bindersHandlers hs
  | .resume _ a => binders a
  | .method r _ as => binders r ++ bindersAll as
def bindersAll : Exprs → List Nat
  | .nil => []
  | .cons e es => binders e ++ bindersAll es
def bindersStmts : Stmts → List Nat
  | .nil => []
  | .bind p e ss => p.ids ++ (binders e ++ bindersStmts ss)
  | .run e ss => binders e ++ bindersStmts ss
def bindersArms : Arms → List Nat
  | .nil => []
  | .arm p b as => (p.ids ++ binders b) ++ bindersArms as
  | .guarded p g b as => (p.ids ++ (binders g ++ binders b)) ++ bindersArms as
def bindersHandlers : Handlers → List Nat
  | .nil => []
  | .on _ ids b hs => (ids ++ binders b) ++ bindersHandlers hs
end

/-- No local is bound twice or bound again where it is in scope, and all are below the counter. -/
structure Apart (G bs : List Nat) (c : Nat) : Prop where
  nodup : bs.Nodup
  disj : ∀ i ∈ bs, i ∉ G
  lt : ∀ i ∈ bs, i < c
  glt : ∀ i ∈ G, i < c

/-! ## Normal forms -/

/-- The expression is not a block. -/
def NotBlock : Expr → Prop
  | .block _ _ => False
  | _ => True

mutual
/-- Strict operands are atoms; blocks stand only at the roots of bodies, not in statements and not in
one another. -/
def Normal : Expr → Prop
  | .var _ => True
  | .global _ => True
  | .lit _ => True
  | .lambda _ b => Normal b
  | .call f as => isAtom f ∧ Normal f ∧ NormalAtoms as
  | .cons _ as => NormalAtoms as
  | .tuple as => NormalAtoms as
  | .list as => NormalAtoms as
  | .record _ _ as => NormalAtoms as
  | .recordWith _ s _ as => isAtom s ∧ Normal s ∧ NormalAtoms as
  | .and l r => isAtom l ∧ Normal l ∧ Normal r
  | .or l r => isAtom l ∧ Normal l ∧ Normal r
  | .block ss e => NormalStmts ss ∧ NotBlock e ∧ Normal e
  | .cases s as => isAtom s ∧ Normal s ∧ NormalArms as
  | .handle b hs => Normal b ∧ NormalHandlers hs
  | .resume _ a => isAtom a ∧ Normal a
  | .method r _ as => isAtom r ∧ Normal r ∧ NormalAtoms as
def NormalAtoms : Exprs → Prop
  | .nil => True
  | .cons e es => isAtom e ∧ Normal e ∧ NormalAtoms es
def NormalStmts : Stmts → Prop
  | .nil => True
  | .bind _ e ss => (NotBlock e ∧ Normal e) ∧ NormalStmts ss
  | .run e ss => (NotBlock e ∧ Normal e) ∧ NormalStmts ss
def NormalArms : Arms → Prop
  | .nil => True
  | .arm _ b as => Normal b ∧ NormalArms as
  | .guarded _ g b as => Normal g ∧ Normal b ∧ NormalArms as
def NormalHandlers : Handlers → Prop
  | .nil => True
  | .on _ _ b hs => Normal b ∧ NormalHandlers hs
end

/-! ## Record expressions as they are written -/

/-- The parts of a record expression evaluated in the order in which they are written. -/
def evalParts (S : Sem M V) : List Part → Env V → M (List Nat × List V × Option V)
  | [], _ => pure ([], [], none)
  | .field n e :: ps, env => do
    let v ← eval S e env; let r ← evalParts S ps env; pure (n :: r.1, v :: r.2.1, r.2.2)
  | .spread e :: ps, env => do
    let v ← eval S e env; let r ← evalParts S ps env; pure (r.1, r.2.1, r.2.2.or (some v))

end Verif.Normalize
