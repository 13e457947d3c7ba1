import Verif.Scheme.Model
import Verif.Solver.Spec

/-!
# What generalisation, instantiation and fresh variables should do

Substitution in types is `Sub.onTy` of `Solver/Spec.lean`.
-/

namespace Verif.Scheme
open Verif.Types Verif.Solver

mutual
/-- The type variables of a type, from left to right, with repetitions; the arguments of the
abilities in an effect row come after the other children. -/
def tyVars : Ty → List UVar
  | .uni v => [v]
  | .node _ ks es _ => tyVarsL ks ++ tyVarsE es
def tyVarsL : List Ty → List UVar
  | [] => []
  | t :: ts => tyVars t ++ tyVarsL ts
def tyVarsEff : Eff → List UVar
  | .mk _ as => tyVarsL as
def tyVarsE : List Eff → List UVar
  | [] => []
  | e :: es => tyVarsEff e ++ tyVarsE es
end

/-- The elements of a list in order of first appearance, without repetitions. -/
def firsts : List UVar → List UVar
  | [] => []
  | v :: vs => v :: (firsts vs).filter (fun w => w ≠ v)

mutual
/-- The type mentions no variable that is already quantified by a scheme. -/
def NoBound : Ty → Prop
  | .uni _ => True
  | .node h ks es _ => (∀ i, h ≠ .bound i) ∧ NoBoundL ks ∧ NoBoundE es
def NoBoundL : List Ty → Prop
  | [] => True
  | t :: ts => NoBound t ∧ NoBoundL ts
def NoBoundEff : Eff → Prop
  | .mk _ as => NoBoundL as
def NoBoundE : List Eff → Prop
  | [] => True
  | e :: es => NoBoundEff e ∧ NoBoundE es
end

/-- Substitute types for type variables; row variables stay. -/
def withTys (f : UVar → Ty) : Sub := ⟨f, fun v => ⟨[], some v⟩⟩

/-- The `i`-th of `vs` stands for the `i`-th of `ts`, every other variable for itself. -/
def assign (vs : List UVar) (ts : List Ty) (v : UVar) : Ty := ((vs.zip ts).lookup v).getD (.uni v)

/-- Rename type variables by `f` and row variables by `g`. -/
def renameVars (f : UVar → UVar) (g : Nat → Nat) : Sub := ⟨fun v => .uni (f v), fun v => ⟨[], some (g v)⟩⟩

/-- `i` is the type `t` with the type variables `vs` renamed to the variables drawn, in order, and
the row variables `q` renamed to row variables drawn, different ones to different ones; all other
variables are as in `t`. -/
def RenamedCopy (t : Ty) (vs : List UVar) (q : List Nat) (i : Inst) : Prop :=
  ∃ f g, i.ty = (renameVars f g).onTy t ∧
    (vs.map f = i.tys ∧ i.tys.Nodup ∧ ∀ v, v ∉ vs → f v = v) ∧
    ((∀ v ∈ Ty.rowVars t, v ∈ q → g v ∈ i.rows) ∧
      (∀ v w, v ∈ Ty.rowVars t → w ∈ Ty.rowVars t → v ∈ q → w ∈ q → g v = g w → v = w) ∧
      ∀ v, v ∉ q → g v = v)

/-! ## Histories of a solver -/

/-- What happens at the interface of a solver: it hands out a variable, or it is given
constraints or a type. -/
inductive Ev
  | gaveTy (v : UVar)
  | gaveRow (v : Nat)
  | sawCons (cs : List Con)
  | sawType (t : Ty)

/-- The type variable occurs in the constraint. -/
def inCon (v : UVar) : Con → Prop
  | .teq a b => v ∈ tyVars a ∨ v ∈ tyVars b
  | .req a b => v ∈ tyVarsE a.effects ∨ v ∈ tyVarsE b.effects

/-- The type variable is mentioned in the event. -/
def Ev.hasTy (v : UVar) : Ev → Prop
  | .gaveTy w => v = w
  | .gaveRow _ => False
  | .sawCons cs => ∃ c ∈ cs, inCon v c
  | .sawType t => v ∈ tyVars t

/-- The row variable is mentioned in the event. -/
def Ev.hasRow (v : Nat) : Ev → Prop
  | .gaveTy _ => False
  | .gaveRow w => v = w
  | .sawCons cs => ∃ c ∈ cs, v ∈ Con.rowVars c
  | .sawType t => v ∈ Ty.rowVars t

/-- A variable handed out by the second event is not mentioned in the first. -/
def NewAfter (e e' : Ev) : Prop :=
  (∀ v, e' = .gaveTy v → ¬ e.hasTy v) ∧ (∀ v, e' = .gaveRow v → ¬ e.hasRow v)

/-- Histories of a solver, with the state reached.  Type variables of the kind the solver makes
occur in constraints and schemes only after the solver has handed them out. -/
inductive Hist : List Ev → St → Prop
  | init : Hist [] St.init
  | freshTy {l st} : Hist l st → Hist (l ++ [.gaveTy (freshTy st).1]) (freshTy st).2
  | freshRow {l st} : Hist l st → Hist (l ++ [.gaveRow (freshRow st).1]) (freshRow st).2
  | solve {l st n cs bs st'} : Hist l st →
      (∀ c ∈ cs, ∀ k, inCon (.solver k) c → .gaveTy (.solver k) ∈ l) →
      Solver.solve n cs st = some (bs, st') → Hist (l ++ [.sawCons cs]) st'
  | inst {l st s i st'} : Hist l st →
      (∀ k, .solver k ∈ tyVars s.body → .gaveTy (.solver k) ∈ l) →
      instantiate s st = some (i, st') →
      Hist (l ++ (.sawType s.body :: (i.tys.map .gaveTy ++ i.rows.map .gaveRow))) st'

/-! ## Histories of the checker of a function body -/

/-- A scheme without free variables. -/
def PolyTy.Closed (s : PolyTy) : Prop :=
  tyVars s.body = [] ∧ ∀ v ∈ Ty.rowVars s.body, v ∈ s.rows

/-- The type variable is free in the type of some visible local binding. -/
def Ctx.visibleTy (c : Ctx) (v : UVar) : Prop := ∃ s ∈ c.schemes, v ∈ tyVars s.body

/-- The row variable is free in the type of some visible local binding. -/
def Ctx.visibleRow (c : Ctx) (v : Nat) : Prop := ∃ s ∈ c.schemes, v ∈ Ty.rowVars s.body ∧ v ∉ s.rows

/-- The type of a constraint or of a value is made of variables drawn before and of variables in
the types of visible bindings. -/
def Known (c : Ctx) (dt : List UVar) (dr : List Nat) (vs : UVar → Prop) (rs : Nat → Prop) : Prop :=
  (∀ v, vs v → v ∈ dt ∨ c.visibleTy v) ∧ (∀ v, rs v → v ∈ dr ∨ c.visibleRow v)

/-- Histories of the checker of a function body: the context reached, the type variables and the
row variables drawn.  `ok n c` restricts the `let` bindings that are generalised. -/
inductive CtxHist (ok : Nat → Ctx → Prop) : Ctx → List UVar → List Nat → Prop
  | new : CtxHist ok Ctx.new [] []
  | freshTy {c dt dr} : CtxHist ok c dt dr → CtxHist ok c.freshTy.2 (c.freshTy.1 :: dt) dr
  | freshRow {c dt dr} : CtxHist ok c dt dr → CtxHist ok c.freshRow.2 dt (c.freshRow.1 :: dr)
  | constrain {c dt dr} (k : Con) : CtxHist ok c dt dr →
      Known c dt dr (inCon · k) (· ∈ Con.rowVars k) →
      CtxHist ok { c with cons := c.cons ++ [k] } dt dr
  | bind {c dt dr} (t : Ty) : CtxHist ok c dt dr →
      Known c dt dr (· ∈ tyVars t) (· ∈ Ty.rowVars t) →
      CtxHist ok { c with schemes := ⟨0, [], t⟩ :: c.schemes } dt dr
  | leave {c dt dr} (k : Nat) : CtxHist ok c dt dr →
      CtxHist ok { c with schemes := c.schemes.drop k } dt dr
  | inst {c dt dr s i c'} : CtxHist ok c dt dr → (s.Closed ∨ s ∈ c.schemes) →
      c.instantiate s = some (i, c') → CtxHist ok c' (i.tys ++ dt) (i.rows ++ dr)
  | letBind {c dt dr n t e c'} : CtxHist ok c dt dr → ok n c →
      Known c dt dr (· ∈ tyVars t) (· ∈ Ty.rowVars t) →
      c.letBind n t e = some c' → CtxHist ok c' dt dr

/-- The row variables invented while solving the constraints of the function are below the
function's own counter. -/
def Tame (n : Nat) (c : Ctx) : Prop :=
  ∀ bs st, solve n c.cons St.init = some (bs, st) → st.next ≤ c.nextRow

/-! ## Generalising `let` bindings -/

/-- Following the bindings of row variables always ends at a row variable without a binding. -/
def RowsResolved (ρ : RLog) : Prop := ∀ row v, (rowApply ρ row).rest = some v → ρ.lookup v = none

/-- After solving, the type variable occurs in the type of a visible binding. -/
def InEnvTy (st : St) (n : Nat) (c : Ctx) (v : UVar) : Prop :=
  ∃ s ∈ c.schemes, ∃ b, apply st.σ st.ρ n s.body = some b ∧ v ∈ tyVars b

/-- After solving, the row variable is free in the type of a visible binding. -/
def InEnvRow (st : St) (n : Nat) (c : Ctx) (v : Nat) : Prop :=
  ∃ s ∈ c.schemes, ∃ b, apply st.σ st.ρ n s.body = some b ∧ v ∈ Ty.rowVars b ∧ v ∉ s.rows

end Verif.Scheme
