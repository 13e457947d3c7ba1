import Verif.Solver.Model

/-!
# Effect tracking in the type checker

Models, of `crates/tribute-front/src/typeck`: `FunctionInferenceContext::merge_effect`
(`func_context.rs` 676-785), the way `check_expr_with_ctx`, `infer_expr_type_with_ctx` and
`convert_expr_kind_with_ctx` (`checker/expr.rs`) walk an expression and change the current effect
row, `remove_handled_effects` (2829-2852), and the part of `check_func_decl`
(`checker/func_check.rs` 77-350) and of the loop over declarations (`checker/mod.rs` 213-232,
332-) that deals with effects.

Simplifications.  Only what matters for the current effect row is kept of an expression (`X`).
Function values are left out: there are no lambdas and no calls of local variables.  Abilities have
no type arguments.  Type constraints are not generated by the model; `Checks` lets the solver be
given any further constraints.
-/

namespace Verif.EffectTrack
open Verif.Types

/-- An ability identifier (`AbilityId`). -/
abbrev Ab := Nat

/-- The effect-relevant part of an expression (`ExprKind`, `ast/expr.rs`).

* `nop`: literals, variables, constructors: nothing happens.
* `op a`: the call of an operation of the ability `a` (its arguments come before it in a `seq`).
* `call f`: the call of the function `f` by name.
* `meth f`: a method call that resolves to the function `f`.
* `seq x y`: two sub-expressions that both walks visit in this order: arguments, elements of
  tuples and lists, fields, expression statements, the scrutinee and the arms of a `case`.
* `bind x y`: the statement `let p = x` and the rest of the block.
* `blind x`: operands of `&&` and `||`, the argument of `resume`, and the arguments of a method
  call that resolves at once: visited by `check_expr`, but not by `infer_expr_type`.
* `handle b hs d`: the body, the operation arms with the ability each belongs to, and the body of
  the `do` arm. -/
inductive X
  | nop
  | op (a : Ab)
  | call (f : Nat)
  | meth (f : Nat)
  | seq (x y : X)
  | bind (x y : X)
  | blind (x : X)
  | handle (b : X) (hs : List (Ab × X)) (d : X)

/-- A declared function: the effect annotation, if there is one, and the body. -/
structure Fn where
  ann : Option Row
  body : X

/-- A program: its functions in source order; `main` is one of them.  `io` is the builtin ability
`std::io::Io`. -/
structure Prog where
  fns : List Fn
  main : Nat
  io : Ab

/-- The effect rows of the type schemes of the functions (`ModuleTypeEnv`).  A tail is a
quantified variable, its name does not matter. -/
abbrev Env := List Row

/-- The part of `FunctionInferenceContext` (`func_context.rs` 140-260) that matters here. -/
structure Ctx where
  cur : Row
  next : Nat
  cs : List Solver.Con

/-- `EffectRow::pure`, `ast/types.rs` 347-349. -/
def pureRow : Row := ⟨[], none⟩

/-- `fresh_row_var`, `fresh_effect_row`, `func_context.rs`. -/
def Ctx.fresh (c : Ctx) : Nat × Ctx := (c.next, { c with next := c.next + 1 })

/-- The closure `merge_effects_with_unification`, `func_context.rs` 710-752, for abilities without
arguments. -/
def mergeEffs (base : List Eff) : List Eff → List Eff
  | [] => base
  | e :: es =>
    if base.any (fun r => r.ability == e.ability) then mergeEffs base es
    else mergeEffs (base ++ [e]) es

/-- `merge_effect_with_origin`, `func_context.rs` 686-785. -/
def Ctx.merge (c : Ctx) (r : Row) : Ctx :=
  if r.isPure then c
  else if c.cur.isPure then { c with cur := r }
  else match c.cur.rest, r.rest with
    | none, none => { c with cur := ⟨mergeEffs c.cur.effects r.effects, none⟩ }
    | some v, none => { c with cur := ⟨mergeEffs c.cur.effects r.effects, some v⟩ }
    | none, some v => { c with cur := ⟨mergeEffs c.cur.effects r.effects, some v⟩ }
    | some v, some w =>
      if v = w then { c with cur := ⟨mergeEffs c.cur.effects r.effects, some v⟩ }
      else { c with cur := ⟨mergeEffs c.cur.effects r.effects, some c.next⟩, next := c.next + 1 }

/-- `instantiate_function`, `func_context.rs`: the quantified tail becomes a fresh variable. -/
def Ctx.inst (c : Ctx) (r : Row) : Row × Ctx :=
  match r.rest with
  | none => (r, c)
  | some _ => (⟨r.effects, some c.next⟩, { c with next := c.next + 1 })

/-- The row of the scheme of a function; a function without a scheme gets a fresh type variable,
whose row is a fresh variable (`infer_var_with_ctx`, `checker/expr.rs` 846-848). -/
def schemeRow (env : Env) (f : Nat) : Row := (env[f]?).getD ⟨[], some 0⟩

/-- `infer_call_with_ctx` for a callee whose type has the row `r`, `checker/expr.rs` 946-1043: a
fresh row for the expected type, the constraint that the two are equal, and the merge.  (The row
variable of the continuation type drawn for calls with one argument is left out.) -/
def Ctx.callRow (c : Ctx) (r : Row) : Ctx :=
  let c' : Ctx := { c with next := c.next + 1, cs := c.cs ++ [.req r ⟨[], some c.next⟩] }
  c'.merge r

/-- The row of an operation's type, `checker/expr.rs` 858-910. -/
def opRow (a : Ab) : Row := ⟨[.mk a []], none⟩

/-- `remove_handled_effects`, `checker/expr.rs` 2829-2852. -/
def removeHandled (r : Row) (ids : List Ab) : Row :=
  ⟨r.effects.filter (fun e => !ids.contains e.ability), r.rest⟩

/-- `infer_expr_type_with_ctx`, `checker/expr.rs` 611-823, and `infer_stmt_and_bind_with_ctx`,
1480-1516.  `BinOp`, `Handle` and `Resume` fall into the last case of the match: nothing is
visited. -/
def infer (env : Env) : X → Ctx → Ctx
  | .nop, c => c
  | .op a, c => c.callRow (opRow a)
  | .call f, c => let (r, c) := c.inst (schemeRow env f); c.callRow r
  | .meth f, c => (c.inst (schemeRow env f)).2
  | .seq x y, c => infer env y (infer env x c)
  | .bind x y, c =>
    let c' := infer env x { c with cur := pureRow }
    infer env y (Ctx.merge { c' with cur := c.cur } c'.cur)
  | .blind _, c => c
  | .handle _ _ _, c => c

/-- The abilities a handle expression handles, `checker/expr.rs` 420-447. -/
def handledIds (io : Ab) (hs : List (Ab × X)) : List Ab := (hs.map Prod.fst).filter (· ≠ io)

/-- The `Handle` case of the first walk of `check_expr_with_ctx`, `checker/expr.rs` 400-497. -/
def handleRow (env : Env) (io : Ab) (b : X) (hs : List (Ab × X)) (d : X) (c : Ctx) : Ctx :=
  let before := c.cur
  let c1 := infer env b { c with cur := ⟨[], some c.next⟩, next := c.next + 1 }
  let c2 := infer env d c1
  let result := if handledIds io hs = [] then c1.cur else removeHandled c1.cur (handledIds io hs)
  { c2 with cur := before, cs := c2.cs ++ [.req before result] }

mutual
/-- `check_expr_with_ctx`, `checker/expr.rs` 107-608, with `convert_expr_kind_with_ctx`, 1180-1478,
and `convert_stmt_with_ctx`, 1519-1570: the expression is walked once for its type, its parts by
`infer_expr_type_with_ctx`; then the parts are checked, which walks them again.  In the second
walk of a handle the body is checked from a fresh row, and the arms from the row outside
(1416-1440). -/
def check (env : Env) (io : Ab) : X → Ctx → Ctx
  | .nop, c => c
  | .op a, c => infer env (.op a) c
  | .call f, c => ((infer env (.call f) c).inst (schemeRow env f)).2
  | .meth f, c => infer env (.meth f) c
  | .seq x y, c => check env io y (check env io x (infer env (.seq x y) c))
  | .bind x y, c =>
    let c0 := infer env (.bind x y) c
    let c' := check env io x { c0 with cur := pureRow }
    check env io y (Ctx.merge { c' with cur := c0.cur } c'.cur)
  | .blind x, c => check env io x (infer env x c)
  | .handle b hs d, c =>
    let c0 := handleRow env io b hs d c
    let c1 := check env io b { c0 with cur := ⟨[], some c0.next⟩, next := c0.next + 1 }
    check env io d (checkArms env io hs { c1 with cur := c0.cur })
/-- The operation arms of a handle, in order. -/
def checkArms (env : Env) (io : Ab) : List (Ab × X) → Ctx → Ctx
  | [], c => c
  | (_, x) :: hs, c => checkArms env io hs (check env io x c)
end

/-- The row of the collected scheme of a function before it is checked: the annotation, or an open
row without effects (`checker/collect.rs`). -/
def collected (P : Prog) : Env := P.fns.map (fun f => f.ann.getD ⟨[], some 0⟩)

/-- The context in which the body of a function is checked, `checker/func_check.rs` 84-122: the
scheme is instantiated; an omitted annotation starts from the pure row. -/
def startCtx (env : Env) (i : Nat) (f : Fn) : Row × Ctx :=
  let (decl, c) := Ctx.inst ⟨pureRow, 0, []⟩ (schemeRow env i)
  (decl, { c with cur := if f.ann.isNone then pureRow else decl })

/-- The context after the body was checked. -/
def bodyCtx (P : Prog) (env : Env) (i : Nat) (f : Fn) : Ctx :=
  check env P.io f.body (startCtx env i f).2

/-- The row of the function's type before the solution is applied, `checker/func_check.rs`
172-212. -/
def inferredRow (P : Prog) (env : Env) (i : Nat) (f : Fn) : Row :=
  let decl := (startCtx env i f).1
  let body := (bodyCtx P env i f).cur
  if f.ann.isNone then
    if i = P.main then ⟨body.effects, none⟩
    else if body.rest.isSome then body
    else ⟨body.effects, decl.rest⟩
  else decl

/-- The check of `main`, `checker/func_check.rs` 275-298: no effect but `Io` in the resolved row of
the body. -/
def mainOk (P : Prog) (ρ : Solver.RLog) (i : Nat) (row : Row) : Bool :=
  i ≠ P.main || (Solver.rowApply ρ row).effects.all (fun e => e.ability == P.io)

/-- The check of an explicit closed annotation, `checker/func_check.rs` 326-350. -/
def annOk (f : Fn) (decl body : Row) (ρ : Solver.RLog) : Bool :=
  f.ann.isNone || (Solver.rowApply ρ decl).rest.isSome ||
    (Solver.rowApply ρ body).effects.all
      (fun e => ((Solver.rowApply ρ decl).effects.map Eff.ability).contains e.ability)

mutual
/-- No handler arm is for the builtin ability, `checker/expr.rs` 431-440 (an error is reported
wherever `check_expr_with_ctx` meets such an arm). -/
def ioFree (io : Ab) : X → Bool
  | .seq x y | .bind x y => ioFree io x && ioFree io y
  | .blind x => ioFree io x
  | .handle b hs d => ioFree io b && ioFreeArms io hs && ioFree io d
  | _ => true
def ioFreeArms (io : Ab) : List (Ab × X) → Bool
  | [] => true
  | (a, x) :: hs => a != io && ioFree io x && ioFreeArms io hs
end

/-- The declarations before the `i`-th were checked without an error, and the schemes are `env` now
(`checker/mod.rs` 213-232: one after the other, in source order).  For each function the solver
(`checker/func_check.rs` 125-157) is given the constraints above and possibly others (those on
types), all with the property `Q`, and accepts them all; then `main` and annotations are checked
and the row of the type is registered (`checker/func_check.rs` 172-212, 250, 352-). -/
inductive Checks (P : Prog) (Q : Solver.Con → Prop) : Nat → Env → Prop
  | start : Checks P Q 0 (collected P)
  | fn {i : Nat} {env : Env} {f : Fn} {cs : List Solver.Con} {n : Nat} {bs : List Bool}
      {st : Solver.St} : Checks P Q i env → P.fns[i]? = some f →
      (∀ c ∈ (bodyCtx P env i f).cs, c ∈ cs) → (∀ c ∈ cs, Q c) →
      Solver.solve n cs Solver.St.init = some (bs, st) → (∀ b ∈ bs, b = true) →
      ioFree P.io f.body = true →
      mainOk P st.ρ i (bodyCtx P env i f).cur = true →
      annOk f (startCtx env i f).1 (bodyCtx P env i f).cur st.ρ = true →
      Checks P Q (i + 1) (env.set i (Solver.rowApply st.ρ (inferredRow P env i f)))

/-- The program is accepted: every declaration was checked without an error; `env` has the rows of
the functions' types. -/
def Accepted (P : Prog) (Q : Solver.Con → Prop) (env : Env) : Prop := Checks P Q P.fns.length env

end Verif.EffectTrack
