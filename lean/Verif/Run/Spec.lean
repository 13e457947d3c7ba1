import Verif.Typing.Spec

/-!
# Running a module

A big-step evaluator for the expressions of the area `Typing`, and what it means for a value to have
a type.  This is not a model of a part of the compiler: it is what the language says a program does
(`new-plans/syntax.md`, `new-plans/types.md`), without abilities.  A run goes *wrong* when it does
something that no rule of the language covers: calling a number, calling a function with a wrong
number of arguments, a method that no function implements for the receiver, matching a pattern
against a value of another type, reading an unbound variable.  A run may also trap (no arm of a
`case` matches, or an `extern` function traps) or need more steps than it is given.
-/

namespace Verif.Run
open Verif.Types Verif.Scheme Verif.Typing

/-! ## Values -/

/-- `data c vs` is a value of a declared type, `con c` a constructor used as a function. -/
inductive Val
  | lit (l : Lit)
  | tuple (vs : List Val)
  | list (vs : List Val)
  | data (c : Nat) (vs : List Val)
  | con (c : Nat)
  | fn (f : Nat)
  | clos (env : List (Nat × Val)) (params : List Nat) (body : E)

abbrev VEnv := List (Nat × Val)

/-- How a run ends. -/
inductive Res (α : Type)
  | ok (a : α)
  | wrong
  | trap
  | out

def Res.bind {α β : Type} : Res α → (α → Res β) → Res β
  | .ok a, f => f a
  | .wrong, _ => .wrong
  | .trap, _ => .trap
  | .out, _ => .out

/-- The type that a constructor belongs to and the number of its fields. -/
def shape (s : PolyTy) : Option (Nat × Nat) :=
  match s.body with
  | .node (.named i _) _ _ _ => some (i, 0)
  | .node (.func _) ks _ _ => match ks.getLast? with
    | some (.node (.named i _) _ _ _) => if ks.length < 2 then none else some (i, ks.length - 1)
    | _ => none
  | _ => none

def ctorShape (P : Prog) (c : Nat) : Option (Nat × Nat) := (P.ctors[c]?).bind shape

/-- The kind of a literal. -/
def litTag (P : Prog) : Lit → Head
  | .int _ => .prim 0
  | .nat _ => .prim 1
  | .float _ => .prim 2
  | .bool _ => .prim 3
  | .bytes _ => .prim 4
  | .rune _ => .prim 5
  | .unit => .prim 6
  | .str _ => .named P.str 0

/-- The type constructor that can be read off a value; functions and tuples have none. -/
def vtag (P : Prog) : Val → Option Head
  | .lit l => some (litTag P l)
  | .list _ => some (.named P.list 0)
  | .data c _ => (ctorShape P c).map (fun s => .named s.1 0)
  | .tuple _ | .con _ | .fn _ | .clos .. => none

/-! ## Patterns -/

mutual
/-- `ok (some b)`: the value matches and the variables are bound to `b`, `ok none`: it does not. -/
def pmatch (P : Prog) : Pat → Val → Res (Option VEnv)
  | .wild, _ => .ok (some [])
  | .bind x, v => .ok (some [(x, v)])
  | .lit l, .lit l' => if litTag P l = litTag P l' then .ok (if l = l' then some [] else none) else .wrong
  | .lit _, _ => .wrong
  | .ctor c ps, .data c' vs => match ctorShape P c, ctorShape P c' with
    | some (i, _), some (j, _) =>
      if i = j then (if c = c' then pmatchL P ps vs else .ok none) else .wrong
    | _, _ => .wrong
  | .ctor _ _, _ => .wrong
  | .tuple ps, .tuple vs => pmatchL P ps vs
  | .tuple _, _ => .wrong
  | .list ps, .list vs => if ps.length = vs.length then pmatchL P ps vs else .ok none
  | .list _, _ => .wrong
  | .listRest ps none, .list vs =>
    if ps.length ≤ vs.length then pmatchL P ps (vs.take ps.length) else .ok none
  | .listRest ps (some x), .list vs =>
    if ps.length ≤ vs.length then (pmatchL P ps (vs.take ps.length)).bind fun
      | some b => .ok (some (b ++ [(x, .list (vs.drop ps.length))]))
      | none => .ok none
    else .ok none
  | .listRest _ _, _ => .wrong
  | .as p x, v => (pmatch P p v).bind fun
    | some b => .ok (some ((x, v) :: b))
    | none => .ok none
/-- All patterns match the corresponding values; a wrong number of values goes wrong. -/
def pmatchL (P : Prog) : List Pat → List Val → Res (Option VEnv)
  | [], [] => .ok (some [])
  | p :: ps, v :: vs => (pmatch P p v).bind fun
    | some b => (pmatchL P ps vs).bind fun
      | some b' => .ok (some (b ++ b'))
      | none => .ok none
    | none => .ok none
  | _, _ => .wrong
end

/-- Later bindings hide earlier ones. -/
def bindV (ρ : VEnv) (b : VEnv) : VEnv := b.foldl (fun ρ p => p :: ρ) ρ

/-! ## Evaluation -/

/-- What the `extern` functions do; `none` is a trap. -/
abbrev Ext := Nat → List Val → Option Val

mutual
/-- Evaluation with at most `n` nested steps. -/
def eval (P : Prog) (X : Ext) : Nat → VEnv → E → Res Val
  | 0, _, _ => .out
  | _ + 1, _, .lit l => .ok (.lit l)
  | _ + 1, ρ, .loc _ x => match ρ.lookup x with
    | some v => .ok v
    | none => .wrong
  | _ + 1, _, .fn f => if f < P.fns.length then .ok (.fn f) else .wrong
  | n + 1, ρ, .call e es => (eval P X n ρ e).bind fun v => (evalL P X n ρ es).bind fun vs => applyV P X n v vs
  | _ + 1, _, .cons c [] => match ctorShape P c with
    | some (_, 0) => .ok (.data c [])
    | some (_, _ + 1) => .ok (.con c)
    | none => .wrong
  | n + 1, ρ, .cons c (e :: es) => (evalL P X n ρ (e :: es)).bind fun vs => applyV P X n (.con c) vs
  | n + 1, ρ, .meth e m es => (eval P X n ρ e).bind fun v => (evalL P X n ρ es).bind fun vs =>
    match select P.methods m (vtag P v) with
    | some f => applyV P X n (.fn f) (v :: vs)
    | none => .wrong
  | n + 1, ρ, .bin isAnd l r => (eval P X n ρ l).bind fun
    | .lit (.bool b) => if b = isAnd then
        (eval P X n ρ r).bind fun
          | .lit (.bool b') => .ok (.lit (.bool b'))
          | _ => .wrong
      else .ok (.lit (.bool b))
    | _ => .wrong
  | n + 1, ρ, .block ss v => (evalSS P X n ρ ss).bind fun ρ' => eval P X n ρ' v
  | n + 1, ρ, .case e arms => (eval P X n ρ e).bind fun v => evalArms P X n ρ v arms
  | _ + 1, ρ, .lam _ ps b => .ok (.clos ρ (ps.map Prod.fst) b)
  | n + 1, ρ, .tuple es => (evalL P X n ρ es).bind fun vs => .ok (.tuple vs)
  | n + 1, ρ, .list es => (evalL P X n ρ es).bind fun vs => .ok (.list vs)
/-- From left to right. -/
def evalL (P : Prog) (X : Ext) : Nat → VEnv → List E → Res (List Val)
  | 0, _, _ => .out
  | _ + 1, _, [] => .ok []
  | n + 1, ρ, e :: es => (eval P X n ρ e).bind fun v => (evalL P X n ρ es).bind fun vs => .ok (v :: vs)
def evalSS (P : Prog) (X : Ext) : Nat → VEnv → List Stmt → Res VEnv
  | 0, _, _ => .out
  | _ + 1, ρ, [] => .ok ρ
  | n + 1, ρ, .expr e :: ss => (eval P X n ρ e).bind fun _ => evalSS P X n ρ ss
  | n + 1, ρ, .bind none _ e :: ss => (eval P X n ρ e).bind fun _ => evalSS P X n ρ ss
  | n + 1, ρ, .bind (some x) _ e :: ss => (eval P X n ρ e).bind fun v => evalSS P X n ((x, v) :: ρ) ss
/-- The first arm whose pattern matches; a trap if there is none. -/
def evalArms (P : Prog) (X : Ext) : Nat → VEnv → Val → List Arm → Res Val
  | 0, _, _, _ => .out
  | _ + 1, _, _, [] => .trap
  | n + 1, ρ, v, .mk p b :: arms => (pmatch P p v).bind fun
    | some bs => eval P X n (bindV ρ bs) b
    | none => evalArms P X n ρ v arms
/-- Calling a value. -/
def applyV (P : Prog) (X : Ext) : Nat → Val → List Val → Res Val
  | 0, _, _ => .out
  | n + 1, .clos ρ ps b, vs =>
    if ps.length = vs.length then eval P X n (bindV ρ (ps.zip vs)) b else .wrong
  | n + 1, .fn f, vs => match P.fns[f]? with
    | none => .wrong
    | some d => if d.params.length = vs.length then
        match d.body with
        | some b => eval P X n (bindV [] (d.params.zip vs)) b
        | none => match X f vs with
          | some v => .ok v
          | none => .trap
      else .wrong
  | _ + 1, .con c, vs => match ctorShape P c with
    | some (_, k) => if vs.length = k ∧ k ≠ 0 then .ok (.data c vs) else .wrong
    | none => .wrong
  | _ + 1, _, _ => .wrong
end

/-! ## Typed values -/

/-- The value has the type `τ`, when functions and constructors have the types of `D`. -/
inductive VTy (D : Sig) : Val → S → Prop
  | lit (l : Lit) : VTy D (.lit l) (D.lit l)
  | tuple (vs : List Val) (τs : List S) : vs.length = τs.length →
      (∀ (i : Nat) v τ, vs[i]? = some v → τs[i]? = some τ → VTy D v τ) → VTy D (.tuple vs) (.tuple τs)
  | list (vs : List Val) (τ : S) : (∀ v ∈ vs, VTy D v τ) → VTy D (.list vs) (D.listOf τ)
  | unit (c : Nat) (τ : S) : D.ctor c τ → (∀ τs ρ, τ ≠ .fn τs ρ) → VTy D (.data c []) τ
  | data (c : Nat) (vs : List Val) (τs : List S) (τ : S) : D.ctor c (.fn τs τ) → vs ≠ [] →
      vs.length = τs.length →
      (∀ (i : Nat) v σ, vs[i]? = some v → τs[i]? = some σ → VTy D v σ) → VTy D (.data c vs) τ
  | con (c : Nat) (τs : List S) (τ : S) : D.ctor c (.fn τs τ) → VTy D (.con c) (.fn τs τ)
  | fn (f : Nat) (τs : List S) (τ : S) : D.fn f (.fn τs τ) → VTy D (.fn f) (.fn τs τ)
  | clos (ρ : VEnv) (ps : List Nat) (b : E) (Γ : TEnv) (τs : List S) (τ : S) :
      (∀ x σ, Γ x σ → ∃ v, ρ.lookup x = some v) →
      (∀ x σ v, Γ x σ → ρ.lookup x = some v → VTy D v σ) → ps.length = τs.length →
      HasTy D b (Γ.bindAll (ps.zip τs)) τ → VTy D (.clos ρ ps b) (.fn τs τ)

/-- Values of the given types, one by one. -/
def VTys (D : Sig) (vs : List Val) (τs : List S) : Prop := List.Forall₂ (VTy D) vs τs

/-- The constructors come from `enum` and `struct` declarations: they build a value of a declared
type, not of `String` or `List`, and the type of the value determines the types of the fields. -/
def CtorsOk (P : Prog) : Prop :=
  ∀ (c : Nat) s, P.ctors[c]? = some s → ∃ i k, shape s = some (i, k) ∧ i ≠ P.str ∧ i ≠ P.list ∧
    ∀ τs τs' τ, Inst s (.fn τs τ) → Inst s (.fn τs' τ) → τs = τs'

/-- An `extern` function returns, if it returns, a value of the type it is declared with. -/
def ExtOk (P : Prog) (D : Sig) (X : Ext) : Prop :=
  ∀ (f : Nat) d, P.fns[f]? = some d → d.body = none → ∀ τs τ vs v, Inst d.sig (.fn τs τ) →
    VTys D vs τs → X f vs = some v → VTy D v τ

/-- Every declared function type has as many parameters as the declaration. -/
def Arities (P : Prog) : Prop :=
  ∀ d ∈ P.fns, ∃ c ks es r, d.sig.body = .node (.func c) ks es r ∧ ks.length = d.params.length + 1

/-- The run did not go wrong, and the result, if there is one, is as described by `Q`. -/
def Res.Safe {α : Type} (Q : α → Prop) : Res α → Prop
  | .ok a => Q a
  | .wrong => False
  | .trap | .out => True

end Verif.Run
