import Verif.Scheme.Model
import Verif.EffectTrack.Model

/-!
# Checking the types of expressions and functions

Models `check_expr_with_ctx`, `infer_expr_type_with_ctx`, `convert_expr_kind_with_ctx` and the
pattern functions of `crates/tribute-front/src/typeck/checker/expr.rs` (107-2170), and
`check_func_decl` with `resolve_deferred_methods` of `checker/func_check.rs` (77-640), with the
loop over the declarations of a module (`checker/mod.rs` 213-232).

The checker walks an expression many times: `check_expr_with_ctx` computes the type of a node
with `infer_expr_type_with_ctx` on its parts, and `convert_expr_kind_with_ctx` then calls
`check_expr_with_ctx` on each part.  The model does the same.

Simplifications.

* Not modelled: records and struct fields, abilities (operations, `handle`, `resume`), guards of
  `case` arms, `Error` nodes, references to things that are not values.  A `let` binds one name or
  none.  Variant patterns have as many fields as the constructor.  The exhaustiveness check is the
  subject of C35.
* Annotations of `let` statements and lambda parameters are given as types (without variables).
* A hash map is an association list; a function, a constructor, a local variable and a node are
  numbers.  The calling convention of a function type is always 0 (it plays no part in solving).
* References are bound: a local variable that is not in scope, or a function or constructor
  without a scheme, is an error of name resolution (the checker would give it a fresh type).
* Only what can be observed in the constraints, the variables drawn and the diagnostics is kept:
  the converted tree is not built.
* `none` is divergence of the solver or a panic of instantiation.

The field `lost` of the state is not in the program and does not influence anything.  It records
that the checker forgot a connection between two types; the theorems of this area say what that
means, and that nothing is wrong when it never happens.
-/

namespace Verif.Typing
open Verif.Types Verif.Solver Verif.Scheme

/-! ## Programs -/

/-- The literals of `ExprKind`, `ast/expr.rs`; strings and byte strings are numbered. -/
inductive Lit
  | nat (n : Nat)
  | int (i : Int)
  | float (bits : Nat)
  | bool (b : Bool)
  | str (s : Nat)
  | bytes (s : Nat)
  | unit
  | rune (c : Nat)
  deriving DecidableEq

/-- `PatternKind`, `ast/pattern.rs`; variables are `LocalId`s. -/
inductive Pat
  | wild
  | bind (x : Nat)
  | lit (l : Lit)
  | ctor (c : Nat) (ps : List Pat)
  | tuple (ps : List Pat)
  | list (ps : List Pat)
  | listRest (ps : List Pat) (rest : Option Nat)
  | as (p : Pat) (x : Nat)

mutual
/-- `ExprKind` after name resolution, `ast/expr.rs`.  References to local variables and lambdas
carry their `NodeId`. -/
inductive E
  | lit (l : Lit)
  | loc (node x : Nat)
  | fn (f : Nat)
  | call (callee : E) (args : List E)
  | cons (c : Nat) (args : List E)
  | meth (recv : E) (m : Nat) (args : List E)
  | bin (isAnd : Bool) (l r : E)
  | block (ss : List Stmt) (value : E)
  | case (scrut : E) (arms : List Arm)
  | lam (node : Nat) (params : List (Nat × Option Ty)) (body : E)
  | tuple (es : List E)
  | list (es : List E)
/-- `Stmt`, `ast/expr.rs`: `let x: ann = e` (`none` for `_`) and an expression. -/
inductive Stmt
  | bind (x : Option Nat) (ann : Option Ty) (e : E)
  | expr (e : E)
/-- `Arm`, `ast/expr.rs`, without a guard. -/
inductive Arm
  | mk (p : Pat) (body : E)
end

/-- `MethodEntry` with its name, `typeck/context.rs` 55-60. -/
structure Method where
  name : Nat
  fn : Nat
  ty : Ty

/-- The part of `ModuleTypeEnv` (`typeck/context.rs`) that is used: the schemes of functions and
constructors, the method index, the identities of `String` and the builtin `List`, and the names
of the arithmetic and comparison operators. -/
structure Env where
  fns : List PolyTy
  ctors : List PolyTy
  methods : List Method
  str : Nat
  list : Nat
  arith : List Nat
  cmp : List Nat

/-! ## The state -/

/-- `DeferredMethodCall`, `func_context.rs`. -/
structure Deferred where
  recv : Ty
  name : Nat
  result : Ty
  args : List Ty

/-- The state of `FunctionInferenceContext`, `func_context.rs` 100-195, that is used.  `names` are
the local ids of `c.schemes`, innermost first; `cur` is the current effect row; `refs` is
`quantified_local_reference_types`; `lams` is `inferred_lambda_types`. -/
structure K where
  c : Ctx
  names : List Nat
  cur : Row
  refs : List (Nat × Ty)
  lams : List (Nat × Ty)
  defer : List Deferred
  lost : Bool

/-- `FunctionInferenceContext::new`, `func_context.rs` 170-195. -/
def K.new : K := ⟨Ctx.new, [], ⟨[], none⟩, [], [], [], false⟩

/-- `fresh_type_var`, `func_context.rs` 214-223. -/
def K.fresh (k : K) : Ty × K := (.uni k.c.freshTy.1, { k with c := k.c.freshTy.2 })

/-- `(0..m).map(|_| ctx.fresh_type_var()).collect()`. -/
def K.freshTys (m : Nat) (k : K) : List Ty × K :=
  ((Ctx.freshTys m k.c).1.map .uni, { k with c := (Ctx.freshTys m k.c).2 })

/-- `fresh_effect_row`, `func_context.rs` 226-240. -/
def K.freshRow (k : K) : Row × K := (⟨[], some k.c.freshRow.1⟩, { k with c := k.c.freshRow.2 })

/-- `constrain_eq`, `constrain_row_eq`, `func_context.rs`. -/
def K.add (k : K) (cs : List Con) : K := { k with c := { k.c with cons := k.c.cons ++ cs } }

/-- The checker forgets something (not in the program). -/
def K.lose (b : Bool) (k : K) : K := { k with lost := k.lost || b }

/-- `bind_local_scheme`, `func_context.rs`. -/
def K.bindScheme (x : Nat) (s : PolyTy) (k : K) : K :=
  { k with c := { k.c with schemes := s :: k.c.schemes }, names := x :: k.names }

/-- `bind_local`, `func_context.rs`: a scheme without parameters. -/
def K.bind (x : Nat) (t : Ty) (k : K) : K := k.bindScheme x ⟨0, [], t⟩

/-- `for (x, t) in xs.zip(ts) { ctx.bind_local(x, t) }`. -/
def K.bindAll : List Nat → List Ty → K → K
  | x :: xs, t :: ts, k => K.bindAll xs ts (k.bind x t)
  | _, _, k => k

/-- `pop_scope`, `func_context.rs`: back to the scopes of the state `old`. -/
def K.pop (old k : K) : K := { k with c := { k.c with schemes := old.c.schemes }, names := old.names }

/-- `merge_effect`, `func_context.rs` 676-785 (see `EffectTrack`). -/
def K.merge (r : Row) (k : K) : K :=
  let m := EffectTrack.Ctx.merge ⟨k.cur, k.c.nextRow, []⟩ r
  { k with cur := m.cur, c := { k.c with nextRow := m.next } }

/-- `instantiate_scheme`, `func_context.rs` 542-558. -/
def K.inst (s : PolyTy) (k : K) : Option (Ty × K) :=
  match k.c.instantiate s with
  | none => none
  | some (i, c) => some (i.ty, { k with c := c })

/-- `instantiate_function` and `instantiate_constructor` in `infer_var_with_ctx`,
`checker/expr.rs` 846-852. -/
def K.instAt (ss : List PolyTy) (i : Nat) (k : K) : Option (Ty × K) :=
  match ss[i]? with
  | some s => k.inst s
  | none => none

/-- `local_scheme`, `func_context.rs`: the innermost binding of the variable. -/
def K.lookup (x : Nat) (k : K) : Option PolyTy := (k.names.zip k.c.schemes).lookup x

/-- `lookup_local_reference`, `func_context.rs` 404-426. -/
def K.ref (node x : Nat) (k : K) : Option (Ty × K) :=
  match k.lookup x with
  | none => none
  | some s =>
    if s.params = 0 ∧ s.rows = [] then k.inst s
    else match k.refs.lookup node with
      | some t => some (t, k)
      | none => match k.inst s with
        | none => none
        | some (t, k') => some (t, { k' with refs := (node, t) :: k'.refs })

/-! ## Types -/

/-- `nat_type` .. `rune_type`, `string_type`, `typeck/context.rs` 590-660. -/
def litTy (G : Env) : Lit → Ty
  | .nat _ => tNat
  | .int _ => tInt
  | .float _ => .node (.prim 2) [] [] none
  | .bool _ => tBool
  | .str _ => tNamed G.str []
  | .bytes _ => .node (.prim 4) [] [] none
  | .unit => .node (.prim 6) [] [] none
  | .rune _ => .node (.prim 5) [] [] none

/-- `canonical_list_type`, `typeck/context.rs` 717-720. -/
def listTy (G : Env) (t : Ty) : Ty := tNamed G.list [t]

/-- `if let TypeKind::Func { params, result, effect, .. } = ty.kind(db)`. -/
def funParts : Ty → Option (List Ty × Ty × Row)
  | .node (.func _) ks es r => match ks.getLast? with
    | some t => some (ks.dropLast, t, ⟨es, r⟩)
    | none => none
  | _ => none

/-- `if let TypeKind::Tuple(elems) = ty.kind(db)`. -/
def tupleParts : Ty → Option (List Ty)
  | .node .tuple ks _ _ => some ks
  | _ => none

/-- The first case of `extract_list_element_type`, `checker/expr.rs` 1084-1107. -/
def listElem (G : Env) : Ty → Option Ty
  | .node (.named i _) [t] _ _ => if i = G.list then some t else none
  | _ => none

mutual
/-- `type_contains_univar`, `checker/expr.rs` 48-105. -/
def hasUni : Ty → Bool
  | .uni _ => true
  | .node _ ks es r => hasUniL ks || hasUniE es || r.isSome
def hasUniL : List Ty → Bool
  | [] => false
  | t :: ts => hasUni t || hasUniL ts
def hasUniEff : Eff → Bool
  | .mk _ as => hasUniL as
def hasUniE : List Eff → Bool
  | [] => false
  | e :: es => hasUniEff e || hasUniE es
end

/-! ## Methods -/

/-- `same_constructor` in `receiver_type_matches`, `typeck/context.rs` 95-118 (types of the form
`App` do not occur in the model). -/
def sameCtor : Ty → Ty → Bool
  | .node (.named i _) _ _ _, .node (.named j _) _ _ _ => i == j
  | .node (.prim p) _ _ _, .node (.prim q) _ _ _ => p == q
  | _, _ => false

/-- `receiver_type_matches`, `typeck/context.rs` 88-121. -/
def Method.matches (e : Method) (t : Ty) : Bool :=
  match funParts e.ty with
  | some (p :: _, _, _) => sameCtor p t
  | _ => false

/-- `lookup_method`, `typeck/context.rs` 242-258: exactly one entry matches. -/
def Env.method (G : Env) (m : Nat) (t : Ty) : Option Method :=
  match G.methods.filter (fun e => e.name == m && e.matches t) with
  | [e] => some e
  | _ => none

/-! ## Calls -/

/-- `resolve_callee_effect`, `checker/expr.rs` 1048-1058. -/
def calleeRow (callee : Ty) (row : Row) : Row :=
  match funParts callee with
  | some (_, _, r) => r
  | none => row

/-- The variables drawn for the continuation type of a call with one argument,
`checker/expr.rs` 963-977. -/
def K.contVars (args : Nat) (k : K) : K :=
  if args = 1 then k.fresh.2.fresh.2.freshRow.2 else k

/-- `infer_call_with_ctx`, `checker/expr.rs` 946-1043, for a callee that is not a continuation. -/
def inferCall (callee : Ty) (args : List Ty) (k : K) : Ty × K :=
  let ps := k.freshTys args.length
  let r := ps.2.fresh
  let row := (r.2.contVars args.length).freshRow
  let k := row.2.add (.teq callee (tFunc ps.1 r.1 row.1) :: List.zipWith .teq ps.1 args)
  (r.1, k.merge (calleeRow callee row.1))

/-! ## Patterns -/

/-- A pattern with the types that `infer_pattern_type_with_ctx` records for its parts: those of
the fields of a variant, and the parameters and the result of the constructor. -/
inductive AP
  | none
  | bind (x : Nat)
  | ctor (params : List Ty) (res : Ty) (fields : List (Ty × AP))
  | tuple (ps : List AP)
  | list (ps : List AP)
  | listRest (ps : List AP) (rest : Option Nat)
  | as (p : AP) (x : Nat)

mutual
/-- `infer_pattern_type_with_ctx`, `checker/expr.rs` 1767-1835.  A variant pattern with a wrong
number of fields is not modelled (the program ignores the additional ones). -/
def inferPat (G : Env) : Pat → K → Option (Ty × AP × K)
  | .wild, k => some (k.fresh.1, .none, k.fresh.2)
  | .bind x, k => some (k.fresh.1, .bind x, k.fresh.2)
  | .lit l, k => some (litTy G l, .none, k)
  | .ctor c ps, k => do
    let (ct, k) ← k.instAt G.ctors c
    match funParts ct with
    | some (params, res, _) =>
      let (fs, k) ← inferFields G params ps k
      some (res, .ctor params res fs, k)
    | .none => if ps.isEmpty then some (ct, .ctor [] ct [], k) else .none
  | .tuple ps, k => do
    let (ts, aps, k) ← inferPats G ps k
    some (tTuple ts, .tuple aps, k)
  | .list ps, k => do
    let el := k.fresh.1
    let (aps, k) ← inferElemPats G el ps k.fresh.2
    some (listTy G el, .list aps, k)
  | .listRest ps rest, k => do
    let el := k.fresh.1
    let (aps, k) ← inferElemPats G el ps k.fresh.2
    some (listTy G el, .listRest aps rest, k)
  | .as p x, k => do
    let (t, ap, k) ← inferPat G p k
    some (t, .as ap x, k)
/-- The loop over the fields of a variant, `checker/expr.rs` 1789-1793. -/
def inferFields (G : Env) (params : List Ty) : List Pat → K → Option (List (Ty × AP) × K)
  | [], k => if params.isEmpty then some ([], k) else .none
  | p :: ps, k => match params with
    | [] => .none
    | u :: us => do
      let (t, ap, k) ← inferPat G p k
      let (r, k) ← inferFields G us ps (k.add [.teq t u])
      some ((t, ap) :: r, k)
/-- The elements of a tuple pattern, `checker/expr.rs` 1799-1805. -/
def inferPats (G : Env) : List Pat → K → Option (List Ty × List AP × K)
  | [], k => some ([], [], k)
  | p :: ps, k => do
    let (t, ap, k) ← inferPat G p k
    let (ts, aps, k) ← inferPats G ps k
    some (t :: ts, ap :: aps, k)
/-- The elements of a list pattern, `checker/expr.rs` 1806-1821. -/
def inferElemPats (G : Env) (el : Ty) : List Pat → K → Option (List AP × K)
  | [], k => some ([], k)
  | p :: ps, k => do
    let (t, ap, k) ← inferPat G p k
    let (aps, k) ← inferElemPats G el ps (k.add [.teq t el])
    some (ap :: aps, k)
end

mutual
/-- `bind_pattern_vars_with_ctx`, `checker/expr.rs` 1838-1925.  When the type is not known to be a
tuple or a list, the variables get fresh types that are connected to nothing. -/
def bindPat (G : Env) : AP → Ty → K → K
  | .none, _, k => k
  | .bind x, t, k => k.bind x t
  | .ctor _ _ fs, _, k => bindFields G fs k
  | .tuple ps, t, k => match tupleParts t with
    | some ts => bindPats G ps ts k
    | .none => bindPats G ps (k.freshTys ps.length).1 ((k.freshTys ps.length).2.lose true)
  | .list ps, t, k => match listElem G t with
    | some el => bindElems G el ps k
    | .none => bindElems G k.fresh.1 ps (k.fresh.2.lose true)
  | .listRest ps rest, t, k =>
    match listElem G t with
    | some el => bindRest G el rest (bindElems G el ps k)
    | .none => bindRest G k.fresh.1 rest (bindElems G k.fresh.1 ps (k.fresh.2.lose true))
  | .as p x, t, k => bindPat G p t (k.bind x t)
/-- The fields of a variant get their recorded types, `checker/expr.rs` 1864-1871. -/
def bindFields (G : Env) : List (Ty × AP) → K → K
  | [], k => k
  | (t, p) :: fs, k => bindFields G fs (bindPat G p t k)
def bindPats (G : Env) : List AP → List Ty → K → K
  | [], _, k => k
  | p :: ps, ts, k => match ts with
    | [] => k
    | t :: ts => bindPats G ps ts (bindPat G p t k)
def bindElems (G : Env) (el : Ty) : List AP → K → K
  | [], k => k
  | p :: ps, k => bindElems G el ps (bindPat G p el k)
/-- The name of the rest of a list, `checker/expr.rs` 1904-1909. -/
def bindRest (G : Env) (el : Ty) : Option Nat → K → K
  | some x, k => k.bind x (listTy G el)
  | .none, k => k
end

mutual
/-- `convert_pattern_with_expected_ctx`, `checker/expr.rs` 2042-2168. -/
def convPat (G : Env) : AP → Ty → K → K
  | .none, _, k => k
  | .bind _, _, k => k
  | .ctor params res fs, t, k => convFields G params fs (k.add [.teq res t])
  | .tuple ps, t, k => match tupleParts t with
    | some ts => convPats G ps ts k
    | .none => convPats G ps (k.freshTys ps.length).1 (k.freshTys ps.length).2
  | .list ps, t, k => convElems G k.fresh.1 ps (k.fresh.2.add [.teq t (listTy G k.fresh.1)])
  | .listRest ps _, t, k => convElems G k.fresh.1 ps (k.fresh.2.add [.teq t (listTy G k.fresh.1)])
  | .as p _, t, k => convPat G p t k
def convFields (G : Env) (params : List Ty) : List (Ty × AP) → K → K
  | [], k => k
  | (_, p) :: fs, k => match params with
    | [] => k
    | u :: us => convFields G us fs (convPat G p u k)
def convPats (G : Env) : List AP → List Ty → K → K
  | [], _, k => k
  | p :: ps, ts, k => match ts with
    | [] => k
    | t :: ts => convPats G ps ts (convPat G p t k)
def convElems (G : Env) (el : Ty) : List AP → K → K
  | [], k => k
  | p :: ps, k => convElems G el ps (convPat G p el k)
end

/-! ## Expressions -/

/-- The types of lambda parameters, `checker/expr.rs` 318-324 and 740-746. -/
def paramTys : List (Nat × Option Ty) → K → List Ty × K
  | [], k => ([], k)
  | (_, some t) :: ps, k => (t :: (paramTys ps k).1, (paramTys ps k).2)
  | (_, .none) :: ps, k => (k.fresh.1 :: (paramTys ps k.fresh.2).1, (paramTys ps k.fresh.2).2)

/-- Does the newest scheme quantify over type variables? -/
def quantified : List PolyTy → Bool
  | s :: _ => s.params != 0
  | [] => false

/-- The end of a `let` statement, `checker/expr.rs` 1500-1513 and 1543-1560: the effect of the
value is merged, the pattern gets a fresh type equal to the value's, and the name is bound to the
generalised type (`Scheme.Ctx.letBind`).  The constraints of method calls whose resolution is
deferred are not among those solved for it. -/
def letEnd (n : Nat) (x : Option Nat) (outer : Row) (t : Ty) (k : K) : Option K :=
  let eff := k.cur
  let k := K.merge eff { k with cur := outer }
  let k := k.fresh.2.add [.teq k.fresh.1 t]
  match x with
  | .none => some k
  | some x => match k.c.letBind n t eff with
    | .none => .none
    | some c => some (K.lose (!k.defer.isEmpty && quantified c.schemes)
        { k with c := c, names := x :: k.names })

/-- The result of a method call that resolves at once, in the inferring walk,
`checker/expr.rs` 708-716: neither the receiver nor the arguments are constrained.  Nothing is
forgotten only if there are no arguments and the receiver has the type of the only parameter. -/
def methResult (G : Env) (f : Nat) (recv : Ty) (args : List E) (k : K) : Option (Ty × K) := do
  let (ct, k) ← k.instAt G.fns f
  match funParts ct with
  | some (ps, r, _) => some (r, k.lose (!(args.isEmpty && decide (ps = [recv]))))
  | .none => some (k.fresh.1, k.fresh.2.lose true)

mutual
/-- `infer_expr_type_with_ctx`, `checker/expr.rs` 610-798.  `&&` and `||` fall into the last case
of the match: a fresh type, and the operands are not visited. -/
def infer (G : Env) (n : Nat) : E → K → Option (Ty × K)
  | .lit l, k => some (litTy G l, k)
  | .loc node x, k => k.ref node x
  | .fn f, k => k.instAt G.fns f
  | .call callee args, k => do
    let (ct, k) ← infer G n callee k
    let (ts, k) ← inferL G n args k
    some (inferCall ct ts k)
  | .cons c args, k => do
    let (ct, k) ← k.instAt G.ctors c
    let (ts, k) ← inferL G n args k
    if args.isEmpty then some (ct, k) else some (inferCall ct ts k)
  | .meth recv m args, k => do
    let (rt, k) ← infer G n recv k
    match G.method m rt with
    | some e => methResult G e.fn rt args k
    | .none =>
      let res := k.fresh.1
      let (ts, k) ← inferL G n args k.fresh.2
      some (res, { k with defer := k.defer ++ [⟨rt, m, res, rt :: ts⟩] })
  | .bin _ _ _, k => some (k.fresh.1, k.fresh.2.lose true)
  | .block ss v, k => do
    let k1 ← inferSS G n ss k
    let (t, k2) ← infer G n v k1
    some (t, K.pop k k2)
  | .case s arms, k => do
    let (st, k) ← infer G n s k
    let res := k.fresh.1
    let k ← inferArms G n st res arms k.fresh.2
    some (res, k)
  | .lam node ps body, k => do
    let q := paramTys ps k
    let row := q.2.freshRow
    let k1 := K.bindAll (ps.map Prod.fst) q.1 { row.2 with cur := row.1 }
    let (t, k2) ← infer G n body k1
    let ft := tFunc q.1 t k2.cur
    let k3 := K.pop k { k2 with cur := k.cur }
    some (ft, { k3 with lams := if (k3.lams.lookup node).isSome then k3.lams
                                else (node, ft) :: k3.lams })
  | .tuple es, k => do
    let (ts, k) ← inferL G n es k
    some (tTuple ts, k)
  | .list es, k => do
    let el := k.fresh.1
    let k ← inferElems G n el es k.fresh.2
    some (listTy G el, k)
def inferL (G : Env) (n : Nat) : List E → K → Option (List Ty × K)
  | [], k => some ([], k)
  | e :: es, k => do
    let (t, k) ← infer G n e k
    let (ts, k) ← inferL G n es k
    some (t :: ts, k)
/-- The elements of a list, `checker/expr.rs` 788-794. -/
def inferElems (G : Env) (n : Nat) (el : Ty) : List E → K → Option K
  | [], k => some k
  | e :: es, k => do
    let (t, k) ← infer G n e k
    inferElems G n el es (k.add [.teq t el])
/-- `infer_stmt_and_bind_with_ctx`, `checker/expr.rs` 1480-1516, for the statements of a block. -/
def inferSS (G : Env) (n : Nat) : List Stmt → K → Option K
  | [], k => some k
  | .expr e :: ss, k => do
    let (_, k) ← infer G n e k
    inferSS G n ss k
  | .bind x (some t) e :: ss, k0 => do
    let (u, k) ← infer G n e { k0 with cur := ⟨[], .none⟩ }
    let k ← letEnd n x k0.cur t (k.add [.teq u t])
    inferSS G n ss k
  | .bind x .none e :: ss, k0 => do
    let (t, k) ← infer G n e { k0 with cur := ⟨[], .none⟩ }
    let k ← letEnd n x k0.cur t k
    inferSS G n ss k
/-- The loop over the arms of a `case`, `checker/expr.rs` 684-694. -/
def inferArms (G : Env) (n : Nat) (st res : Ty) : List Arm → K → Option K
  | [], k => some k
  | .mk p b :: arms, k0 => do
    let (pt, ap, k) ← inferPat G p k0
    let k := bindPat G ap st (k.add [.teq pt st])
    let (t, k) ← infer G n b k
    inferArms G n st res arms (K.pop k0 (k.add [.teq t res]))
end

/-- `Mode`, `checker/mod.rs`: infer a type, or check against one. -/
inductive Mode
  | infer
  | check (t : Ty)

/-- The effect a lambda is checked against, `checker/expr.rs` 299-316. -/
def Mode.row : Mode → Option Row
  | .infer => none
  | .check t => (funParts t).map (fun p => p.2.2)

/-- The constraints of `Mode::Check` on a lambda, `checker/expr.rs` 541-560. -/
def Mode.lamCons (t : Ty) : Mode → List Con
  | .infer => []
  | .check u => match funParts u, funParts t with
    | some (us, ur, _), some (ts, tr, _) => List.zipWith .teq ts us ++ [.teq tr ur]
    | _, _ => []

/-- The constraint of `Mode::Check` on any other expression, `checker/expr.rs` 561-563. -/
def Mode.cons (t : Ty) : Mode → List Con
  | .infer => []
  | .check u => [.teq t u]

/-- The mode for the argument `i` of a call, `checker/expr.rs` 1226-1253. -/
def argMode (callee : Ty) (i : Nat) : Mode :=
  match funParts callee with
  | some (ps, _, _) => match ps[i]? with
    | some t => if hasUni t then .infer else .check t
    | none => .infer
  | none => .infer

/-- The type of the first argument after the receiver, if there is one: `arg_types.get(1)`. -/
def opCons (recv : Ty) : List Ty → List Con
  | t :: _ => [.teq recv t]
  | [] => []

/-- The result type of a deferred method call in the checking walk with the constraints added for
operators, `checker/expr.rs` 231-252. -/
def deferResult (G : Env) (m : Nat) (recv : Ty) (args : List Ty) (k : K) : Ty × K :=
  if m ∈ G.arith then (recv, k.add (opCons recv args))
  else if m ∈ G.cmp then (tBool, k.add (opCons recv args))
  else k.fresh

/-- The arguments of a method that resolves at once in the checking walk, `checker/expr.rs`
219-224: each argument is inferred and constrained to its parameter; additional arguments are
ignored. -/
def methArgs (G : Env) (n : Nat) : List E → List Ty → K → Option K
  | e :: es, u :: us, k => do
    let (t, k) ← infer G n e k
    methArgs G n es us (k.add [.teq t u])
  | _, _, k => some k

/-- The type of a method call in the checking walk, `checker/expr.rs` 196-263. -/
def synthMeth (G : Env) (n : Nat) (recv : E) (m : Nat) (args : List E) (k : K) :
    Option (Ty × K) := do
  let (rt, k) ← infer G n recv k
  match G.method m rt with
  | some e =>
    let (ct, k) ← k.instAt G.fns e.fn
    match funParts ct with
    | some (p :: ps, r, _) =>
      let k ← methArgs G n args ps (k.add [.teq rt p])
      some (r, k)
    | some ([], r, _) => some (r, k)
    | none => some k.fresh
  | none =>
    let (ts, k) ← inferL G n args k
    let q := deferResult G m rt ts k
    some (q.1, { q.2 with defer := q.2.defer ++ [⟨rt, m, q.1, rt :: ts⟩] })

/-- The effect of a lambda and its constraint, `checker/expr.rs` 355-375. -/
def lamRow (mode : Mode) (k : K) : Row × K :=
  match mode.row with
  | some r => (r, k.add [.req k.cur r])
  | none => (k.cur, k)

/-- The type of a lambda in the checking walk, `checker/expr.rs` 296-399. -/
def synthLam (G : Env) (n : Nat) (mode : Mode) (ps : List (Nat × Option Ty)) (body : E) (k : K) :
    Option (Ty × K) := do
  let q := paramTys ps k
  let row := q.2.freshRow
  let k1 := K.bindAll (ps.map Prod.fst) q.1 { row.2 with cur := row.1 }
  let (t, k2) ← infer G n body k1
  let lr := lamRow mode k2
  let k3 := K.pop k { lr.2 with cur := k.cur }
  let res := k3.fresh.1
  some (tFunc q.1 res lr.1, k3.fresh.2.add [.teq res t])

/-- The first half of `check_expr_with_ctx`, `checker/expr.rs` 113-531: the type of the node,
computed with `infer_expr_type_with_ctx` on its parts.  Except for method calls, `&&`, `||` and
lambdas this is what `infer_expr_type_with_ctx` does. -/
def synth (G : Env) (n : Nat) (mode : Mode) : E → K → Option (Ty × K)
  | .meth recv m args, k => synthMeth G n recv m args k
  | .bin _ l r, k => do
    let (lt, k) ← infer G n l k
    let (rt, k) ← infer G n r k
    some (tBool, k.add [.teq lt tBool, .teq rt tBool])
  | .lam _ ps body, k => synthLam G n mode ps body k
  | e, k => infer G n e k

/-- The constraints that `check_expr_with_ctx` adds to the type of the node,
`checker/expr.rs` 533-576. -/
def modeCons (mode : Mode) (e : E) (t : Ty) (k : K) : K :=
  match e with
  | .lam node _ _ => match k.lams.lookup node with
    | some u => k.add (mode.lamCons t ++ [.teq t u])
    | none => k.add (mode.lamCons t)
  | _ => k.add (mode.cons t)

/-- The parameters of the recorded type of a lambda, `checker/expr.rs` 1363-1379. -/
def lamParams (t : Ty) : List Ty :=
  match funParts t with
  | some (ts, _, _) => ts
  | none => []

/-- `check_expr_with_ctx`, `checker/expr.rs` 107-599, up to the conversion of the node. -/
def start (G : Env) (n : Nat) (mode : Mode) (e : E) (k : K) : Option (Ty × K) := do
  let (t, k) ← synth G n mode e k
  some (t, modeCons mode e t k)

mutual
/-- `convert_expr_kind_with_ctx`, `checker/expr.rs` 1192-1455; `t` is the type recorded for the
node.  Each part is checked: `check_expr_with_ctx` is `start` followed by `conv`. -/
def conv (G : Env) (n : Nat) (t : Ty) : E → K → Option K
  | .lit _, k => some k
  | .loc node x, k => do
    let (_, k) ← k.ref node x
    some k
  | .fn _, k => some k
  | .call callee args, k => do
    let (ct, k) ← start G n .infer callee k
    let k ← conv G n ct callee k
    convArgs G n ct 0 args k
  | .cons c args, k => do
    let (_, k) ← k.instAt G.ctors c
    convL G n args k
  | .meth recv _ args, k => do
    let (rt, k) ← start G n .infer recv k
    let k ← conv G n rt recv k
    convL G n args k
  | .bin _ l r, k => do
    let (lt, k) ← start G n .infer l k
    let k ← conv G n lt l k
    let (rt, k) ← start G n .infer r k
    conv G n rt r k
  | .block ss v, k => do
    let k1 ← convSS G n ss k
    let (vt, k2) ← start G n .infer v k1
    let k3 ← conv G n vt v k2
    some (K.pop k k3)
  | .case s arms, k => do
    let (st, k) ← start G n .infer s k
    let k ← conv G n st s k
    convArms G n st arms k
  | .lam _ ps body, k => do
    let row := k.freshRow
    let k1 := K.bindAll (ps.map Prod.fst) (lamParams t) { row.2 with cur := row.1 }
    let (bt, k2) ← start G n .infer body k1
    let k3 ← conv G n bt body k2
    some (K.pop k { k3 with cur := k.cur })
  | .tuple es, k => convL G n es k
  | .list es, k => convL G n es k
def convL (G : Env) (n : Nat) : List E → K → Option K
  | [], k => some k
  | e :: es, k => do
    let (t, k) ← start G n .infer e k
    let k ← conv G n t e k
    convL G n es k
/-- The arguments of a call, `checker/expr.rs` 1238-1255. -/
def convArgs (G : Env) (n : Nat) (callee : Ty) (i : Nat) : List E → K → Option K
  | [], k => some k
  | e :: es, k => do
    let (t, k) ← start G n (argMode callee i) e k
    let k ← conv G n t e k
    convArgs G n callee (i + 1) es k
/-- `convert_stmt_with_ctx`, `checker/expr.rs` 1520-1570, for the statements of a block. -/
def convSS (G : Env) (n : Nat) : List Stmt → K → Option K
  | [], k => some k
  | .expr e :: ss, k => do
    let (t, k) ← start G n .infer e k
    let k ← conv G n t e k
    convSS G n ss k
  | .bind x (some t) e :: ss, k0 => do
    let (u, k) ← start G n (.check t) e { k0 with cur := ⟨[], .none⟩ }
    let k ← conv G n u e k
    let k ← letEnd n x k0.cur u k
    convSS G n ss k
  | .bind x .none e :: ss, k0 => do
    let (u, k) ← start G n .infer e { k0 with cur := ⟨[], .none⟩ }
    let k ← conv G n u e k
    let k ← letEnd n x k0.cur u k
    convSS G n ss k
/-- The arms of a `case`, `checker/expr.rs` 1317-1331, and `convert_arm_with_scrutinee_ctx`,
2024-2039. -/
def convArms (G : Env) (n : Nat) (st : Ty) : List Arm → K → Option K
  | [], k => some k
  | .mk p b :: arms, k0 => do
    let (pt, ap, k) ← inferPat G p k0
    let k := convPat G ap st (bindPat G ap st (k.add [.teq pt st]))
    let (bt, k) ← start G n .infer b k
    let k ← conv G n bt b k
    convArms G n st arms (K.pop k0 k)
end

/-- `check_expr_with_ctx`, `checker/expr.rs` 107-605: the type recorded for the node. -/
def check (G : Env) (n : Nat) (mode : Mode) (e : E) (k : K) : Option (Ty × K) := do
  let (t, k) ← start G n mode e k
  let k ← conv G n t e k
  some (t, k)

/-! ## Functions -/

/-- A function declaration.  `sig` is the scheme registered by `collect_function_signature`
(`checker/collect.rs` 124-249): every parameter or result without an annotation is a quantified
variable of its own.  `annotated` says whether the effects are annotated.  `body = none` is an
`extern` function: it is not checked. -/
structure Fn where
  sig : PolyTy
  annotated : Bool
  params : List Nat
  body : Option E

/-- One round of the loop of `resolve_deferred_methods`, `func_check.rs` 545-598: the new
constraints, the calls that remain, whether all arities were right, and the state. -/
def resolveRound (G : Env) (n : Nat) : List Deferred → St →
    Option (List Con × List Deferred × Bool × St)
  | [], st => some ([], [], true, st)
  | d :: ds, st => do
    let rt ← apply st.σ [] n d.recv
    match G.method d.name rt with
    | none =>
      let (cs, rem, ok, st) ← resolveRound G n ds st
      some (cs, d :: rem, ok, st)
    | some e =>
      match G.fns[e.fn]? with
      | none => none
      | some s =>
        let (i, st) ← Scheme.instantiate s st
        match funParts i.ty with
        | none => none
        | some (ps, r, row) =>
          let args ← mapO (apply st.σ [] n) d.args
          let (cs, rem, ok, st) ← resolveRound G n ds st
          some (.teq d.result r :: List.zipWith .teq args ps ++ .req row ⟨[], none⟩ :: cs, rem,
            decide (d.args.length = ps.length) && ok, st)

/-- The loop of `resolve_deferred_methods`, `func_check.rs` 529-615: the calls that remain,
whether everything was accepted, and the state.  Every round but the last resolves a call, so
`ds.length + 1` rounds are enough. -/
def resolveLoop (G : Env) (n : Nat) : Nat → List Deferred → St →
    Option (List Deferred × Bool × St)
  | 0, ds, st => some (ds, true, st)
  | m + 1, ds, st => do
    let (cs, rem, ok, st) ← resolveRound G n ds st
    if cs.isEmpty then some (rem, ok, st)
    else
      let (bs, st) ← solve n cs st
      let (rem, ok', st) ← resolveLoop G n m rem st
      some (rem, ok && bs.all id && ok', st)

/-- The type of the function with the effect found for it, `func_check.rs` 150-186 (the function
is not the root `main`). -/
def inferredTy (annotated : Bool) (ft : Ty) (body : Row) : Ty :=
  if annotated then ft
  else match funParts ft with
    | some (ps, r, row) =>
      if body.rest.isSome then tFunc ps r body else tFunc ps r ⟨body.effects, row.rest⟩
    | none => ft

/-- The scheme registered for the checked function, `func_check.rs` 205-300.  Simplification:
only the variables of the function's type become parameters of the scheme (the program also counts
the variables left in its body, which do not occur in the type). -/
def newScheme (st : St) (n : Nat) (t : Ty) : Option PolyTy := do
  let t ← apply st.σ st.ρ n t
  let vs ← collect st.σ st.ρ n t []
  let g ← replace st.σ st.ρ vs.zipIdx [] n t
  some ⟨vs.length, Ty.rowVars g, g⟩

/-- The outcome for a function or a module: accepted without a diagnostic, and whether a
connection was forgotten on the way (see `K.lost`). -/
structure Verdict where
  ok : Bool
  lost : Bool
  deriving DecidableEq

/-- `check_func_decl`, `func_check.rs` 77-470: whether the function is accepted without a
diagnostic, and the scheme registered for it.  Simplification: a function with method calls that
remain unresolved is not accepted (in the program they get another chance in
`tdnr/resolver.rs`), and the diagnostics about effects are left out (C73). -/
def checkFn (G : Env) (n : Nat) (d : Fn) : Option (Verdict × PolyTy) :=
  match d.body with
  | none => some (⟨true, false⟩, d.sig)
  | some body => do
    let (ft, k) ← K.new.inst d.sig
    match funParts ft with
    | none => none
    | some (ps, r, row) =>
      let k := K.bindAll d.params ps k
      let (_, k) ← check G n (.check r) body
        { k with cur := if d.annotated then row else ⟨[], none⟩ }
      let (bs, st) ← solve n k.c.cons St.init
      let (rem, ok, st) ← resolveLoop G n (k.defer.length + 1) k.defer st
      let s ← newScheme st n (inferredTy d.annotated ft k.cur)
      some (⟨bs.all id && ok && rem.isEmpty, k.lost⟩, s)

/-- A module: its functions in source order, the constructors of its types, its method index. -/
structure Prog where
  fns : List Fn
  ctors : List PolyTy
  methods : List Method
  str : Nat
  list : Nat
  arith : List Nat
  cmp : List Nat

/-- The environment when the functions have the schemes `ss`. -/
def Prog.env (P : Prog) (ss : List PolyTy) : Env :=
  ⟨ss, P.ctors, P.methods, P.str, P.list, P.arith, P.cmp⟩

/-- The functions are checked in source order, each with the schemes registered so far
(`checker/mod.rs` 213-232, 332-): `done` are the schemes of the functions already checked,
the others still have the collected one. -/
def checkFns (P : Prog) (n : Nat) : List PolyTy → List Fn → Option (Verdict × List PolyTy)
  | done, [] => some (⟨true, false⟩, done)
  | done, d :: ds => do
    let (v, s) ← checkFn (P.env (done ++ (d :: ds).map Fn.sig)) n d
    let (vs, ss) ← checkFns P n (done ++ [s]) ds
    some (⟨v.ok && vs.ok, v.lost || vs.lost⟩, ss)

/-- Checking a module: whether it is accepted, and the final schemes of its functions. -/
def checkProg (P : Prog) (n : Nat) : Option (Verdict × List PolyTy) := checkFns P n [] P.fns

end Verif.Typing
