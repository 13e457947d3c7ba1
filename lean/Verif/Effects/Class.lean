import Verif.Effects.Spec

/-!
# The programs for which handlers are shown to work

`okE` is the class of programs of the positive theorem.  It excludes shapes for which `Props.lean`
shows a difference:

* in an `op` arm, `resume` is the last thing done, and is not captured by a closure or used in the
  body of another `handle`;
* the body of a `fn` arm needs no continuation, and installs no handler; a `handle` inside an `op`
  arm has no `fn` arms;
* closures of the `Direct` convention capture nothing and install no handler.

Handlers may be installed in functions, closures, arms, `do` arms and handled bodies.
-/

namespace Verif.Effects

/-- Where an expression stands: the variables in scope, whether an owner tag is active, how it is
lowered (0: `main`, 1: a closure of the `Direct` convention, 2: with evidence but no continuation,
3: with a continuation), and the `resume` it may end with. -/
structure Pos where
  Γ : List Var
  own : Bool
  lvl : Nat
  rk : Option Var

/-- The variables do not include the `resume`. -/
def nm (rk : Option Var) (xs : List Var) : Bool :=
  match rk with
  | none => true
  | some r => !decide (r ∈ xs)

def armAbs (hs : List Arm) : List Ab := hs.map Arm.ab

mutual
def okE (π : Pos) : Exp → Bool
  | .var x => nm π.rk [x]
  | .prim _ xs => nm π.rk xs
  | .lam ps b => nm π.rk (mentions b) && okE ⟨ps ++ π.Γ, π.own, 3, none⟩ b
  | .lamD ps b =>
    nm π.rk (mentions b) && !π.own &&
      (π.Γ.all fun x => !decide (x ∈ mentions b) || decide (x ∈ ps)) &&
      okE ⟨ps ++ π.Γ, false, 1, none⟩ b && direct true b
  | .call _ xs => decide (π.lvl = 3) && nm π.rk xs
  | .app c xs => decide (π.lvl = 3) && nm π.rk (c :: xs)
  | .appD c xs => nm π.rk (c :: xs)
  | .op _ _ xs => decide (π.lvl = 3) && nm π.rk xs
  | .fnop _ _ xs => decide (2 ≤ π.lvl) && nm π.rk xs
  | .resume k x => decide (π.lvl = 3) && decide (π.rk = some k) && nm π.rk [x] && π.own
  | .letE x a b =>
    nm π.rk (x :: mentions a) && okE { π with rk := none } a &&
      okE { π with Γ := x :: π.Γ } b
  | .ite x a b => nm π.rk [x] && okE π a && okE π b
  | .handle b hs dx d =>
    decide (π.rk = none) && decide (π.lvl = 0 ∨ π.lvl = 3) &&
      okE ⟨π.Γ, π.own, 3, none⟩ b && okArms π.Γ π.own hs &&
      okE ⟨dx :: π.Γ, π.own, 3, none⟩ d
def okArms (Γ : List Var) (own : Bool) : List Arm → Bool
  | [] => true
  | h :: hs => okArm Γ own h && okArms Γ own hs
def okArm (Γ : List Var) (own : Bool) : Arm → Bool
  | .mk .op _ _ ps rk b => !decide (rk ∈ ps) && okE ⟨ps ++ rk :: Γ, true, 3, some rk⟩ b
  | .mk .fn _ _ ps _ b => !own && okE ⟨ps ++ Γ, false, 2, none⟩ b && direct true b
end

/-- The class of programs. -/
def Prog.ok (P : Prog) : Bool :=
  (P.funs.all fun d => okE ⟨d.2.1, false, 3, none⟩ d.2.2) &&
    okE ⟨[], false, 0, none⟩ P.main && direct false P.main

end Verif.Effects
