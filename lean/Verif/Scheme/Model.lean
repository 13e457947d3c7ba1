import Verif.Solver.Model

/-!
# Type schemes and fresh variables

Models generalisation (`crates/tribute-front/src/typeck/solver.rs` 259-665), instantiation
(`crates/tribute-front/src/typeck/subst.rs` 1-412, `func_context.rs` 542-570), the fresh-variable
counters of the solver and of the checker of a function body, and the generalisation of `let`
bindings (`checker/expr.rs` 1577-1657).

Simplifications: counters are unbounded numbers (in the program `u64`, wrapping after 2^64
variables); an index of a quantified variable is a number (in the program `u32`).  Functions that
follow the solver's bindings take fuel, as in `Solver/Model.lean`.
-/

namespace Verif.Scheme
open Verif.Types Verif.Solver

/-! ## Generalisation -/

/-- `for x in l { f(x, out) }` where `f` may run out of fuel. -/
def foldO {α β : Type} (f : α → β → Option β) : List α → β → Option β
  | [], b => some b
  | a :: as, b => match f a b with
    | none => none
    | some b' => foldO f as b'

/-- `collect_unresolved_univars` and `collect_univars_from_effect_row`, `solver.rs` 581-652. -/
def collect (σ : TLog) (ρ : RLog) : Nat → Ty → List UVar → Option (List UVar)
  | 0, _, _ => none
  | n + 1, .uni v, out => match σ.lookup v with
    | some t => collect σ ρ n t out
    | none => some (if v ∈ out then out else out ++ [v])
  | n + 1, .node _ ks es r, out =>
    match foldO (collect σ ρ n) ks out with
    | none => none
    | some out' =>
      foldO (fun e o => foldO (collect σ ρ n) e.args o) (rowApply ρ ⟨es, r⟩).effects out'

/-- `replace_univars_with_bound_and_local`, `solver.rs` 396-565; with no local variables it is
`replace_univars_with_bound`, 655-664.  A local variable maps to its scope and index. -/
def replace (σ : TLog) (ρ : RLog) (m : List (UVar × Nat)) (loc : List (UVar × (Nat × Nat))) :
    Nat → Ty → Option Ty
  | 0, _ => none
  | n + 1, .uni v => match loc.lookup v with
    | some (scope, i) => some (.node (.localBound scope i) [] [] none)
    | none => match m.lookup v with
      | some i => some (tBound i)
      | none => match σ.lookup v with
        | some t => replace σ ρ m loc n t
        | none => some (.uni v)
  | n + 1, .node h ks es r =>
    match mapO (replace σ ρ m loc n) ks with
    | none => none
    | some ks' =>
      match mapArgs (replace σ ρ m loc n) (rowApply ρ ⟨es, r⟩).effects with
      | none => none
      | some es' => some (.node h ks' es' (rowApply ρ ⟨es, r⟩).rest)

/-- `generalize` and `generalize_with_mapping`, `solver.rs` 267-295 and 338-367: the generalised
type and the variables that became parameters, in order.  A type without unresolved variables is
returned as it is. -/
def generalize (σ : TLog) (ρ : RLog) (n : Nat) (t : Ty) : Option (Ty × List UVar) :=
  match collect σ ρ n t [] with
  | none => none
  | some vs =>
    if vs = [] then some (t, [])
    else match replace σ ρ vs.zipIdx [] n t with
      | none => none
      | some g => some (g, vs)

/-- `generalize_excluding_with_mapping`, `solver.rs` 312-331. -/
def generalizeExcluding (σ : TLog) (ρ : RLog) (n : Nat) (t : Ty) (excluded : List UVar) :
    Option (Ty × List UVar) :=
  match collect σ ρ n t [] with
  | none => none
  | some vs =>
    let vs := vs.filter (fun v => ¬ v ∈ excluded)
    match replace σ ρ vs.zipIdx [] n t with
    | none => none
    | some g => some (g, vs)

/-! ## Instantiation -/

/-- The failures of `substitute_bound_vars`: an index out of range is reported to the caller
(`SubstResult::OutOfBounds`), except inside an effect row, where it is a panic. -/
inductive Fail
  | outOfBounds (index max : Nat)
  | panic
  deriving DecidableEq

mutual
/-- `substitute_bound_vars`, `subst.rs` 45-162. -/
def substB (ts : List Ty) : Ty → Except Fail Ty
  | .uni v => .ok (.uni v)
  | .node h ks es r =>
    match h with
    | .bound i => match ts[i]? with
      | some t => .ok t
      | none => .error (.outOfBounds i ts.length)
    | _ => match substBL ts ks with
      | .error e => .error e
      | .ok ks' => match substE ts es with
        | .error _ => .error .panic
        | .ok es' => .ok (.node h ks' es' r)
/-- The loops over parameters and arguments in `substitute_bound_vars`. -/
def substBL (ts : List Ty) : List Ty → Except Fail (List Ty)
  | [] => .ok []
  | t :: rest => match substB ts t with
    | .error e => .error e
    | .ok t' => match substBL ts rest with
      | .error e => .error e
      | .ok rest' => .ok (t' :: rest')
/-- One effect of `substitute_effect_row`, `subst.rs` 177-198. -/
def substEff (ts : List Ty) : Eff → Except Fail Eff
  | .mk a as => match substBL ts as with
    | .error e => .error e
    | .ok as' => .ok (.mk a as')
/-- `substitute_effect_row`, `subst.rs` 167-205 (returning the same row when nothing changed is
not observable). -/
def substE (ts : List Ty) : List Eff → Except Fail (List Eff)
  | [] => .ok []
  | e :: es => match substEff ts e with
    | .error e => .error e
    | .ok e' => match substE ts es with
      | .error e => .error e
      | .ok es' => .ok (e' :: es')
end

/-- The state of `freshen_effect_vars`: the counter of the generator and the map `row_vars`. -/
structure FS where
  next : Nat
  map : List (Nat × Nat)
  deriving DecidableEq

/-- `row.rest(db).map(..)`, `subst.rs` 283-288. -/
def freshenTail (q : List Nat) : Option Nat → FS → Option Nat × FS
  | none, s => (none, s)
  | some v, s =>
    if v ∈ q then
      match s.map.lookup v with
      | some w => (some w, s)
      | none => (some s.next, ⟨s.next + 1, (v, s.next) :: s.map⟩)
    else (some v, s)

mutual
/-- `freshen_effect_vars_inner`, `subst.rs` 252-412: children first, then the arguments of the
row's abilities, then its tail. -/
def freshen (q : List Nat) : Ty → FS → Ty × FS
  | .uni v, s => (.uni v, s)
  | .node h ks es r, s =>
    let k := freshenL q ks s
    let e := freshenE q es k.2
    let t := freshenTail q r e.2
    (.node h k.1 e.1 t.1, t.2)
def freshenL (q : List Nat) : List Ty → FS → List Ty × FS
  | [], s => ([], s)
  | t :: ts, s =>
    let a := freshen q t s
    let b := freshenL q ts a.2
    (a.1 :: b.1, b.2)
def freshenEff (q : List Nat) : Eff → FS → Eff × FS
  | .mk a as, s =>
    let k := freshenL q as s
    (.mk a k.1, k.2)
def freshenE (q : List Nat) : List Eff → FS → List Eff × FS
  | [], s => ([], s)
  | e :: es, s =>
    let a := freshenEff q e s
    let b := freshenE q es a.2
    (a.1 :: b.1, b.2)
end

/-- `TypeScheme`, `ast/types.rs` (`type_params` are anonymous, so only their number counts). -/
structure PolyTy where
  params : Nat
  rows : List Nat
  body : Ty
  deriving DecidableEq

/-! ## The solver's counter -/

/-- `TypeSolver::fresh_type_var`, `solver.rs` 752-757. -/
def freshTy (st : St) : UVar × St := (.solver st.next, { st with next := st.next + 1 })

/-- `TypeSolver::fresh_row_var`, `solver.rs` 760-764. -/
def freshRow (st : St) : Nat × St := (st.next, { st with next := st.next + 1 })

/-- `(0..k).map(|_| fresh_type_var()).collect()`. -/
def freshTys : Nat → St → List UVar × St
  | 0, st => ([], st)
  | k + 1, st =>
    let a := freshTy st
    let b := freshTys k a.2
    (a.1 :: b.1, b.2)

/-- The result of an instantiation: the type, and the variables drawn for it. -/
structure Inst where
  ty : Ty
  tys : List UVar
  rows : List Nat

/-- `instantiate_scheme_for_solver`, `subst.rs` 212-233.  `none` is the panic on an index out of
range.  The row variables drawn are the values of the map. -/
def instantiate (s : PolyTy) (st : St) : Option (Inst × St) :=
  let st1 := { st with next := reserve st.next (Ty.rowVars s.body) }
  let f := freshTys s.params st1
  match substB (f.1.map .uni) s.body with
  | .error _ => none
  | .ok t =>
    let r := freshen s.rows t ⟨f.2.next, []⟩
    some (⟨r.1, f.1, (r.2.map.map Prod.snd).reverse⟩, { f.2 with next := r.2.next })

/-! ## Checking a function body -/

/-- The part of `FunctionInferenceContext` that allocates and records: the two counters, the
constraints collected so far and the schemes of the visible local bindings
(`func_context.rs` 100-130). -/
structure Ctx where
  nextTy : Nat
  nextRow : Nat
  cons : List Con
  schemes : List PolyTy

/-- `FunctionInferenceContext::new`, `func_context.rs` 170-195: row variables start from 1. -/
def Ctx.new : Ctx := ⟨0, 1, [], []⟩

/-- `FunctionInferenceContext::fresh_type_var`, `func_context.rs` 214-223. -/
def Ctx.freshTy (c : Ctx) : UVar × Ctx := (.src c.nextTy, { c with nextTy := c.nextTy + 1 })

/-- `FunctionInferenceContext::fresh_row_var`, `func_context.rs` 226-230. -/
def Ctx.freshRow (c : Ctx) : Nat × Ctx := (c.nextRow, { c with nextRow := c.nextRow + 1 })

/-- `(0..k).map(|_| self.fresh_type_var()).collect()`, `func_context.rs` 548-549. -/
def Ctx.freshTys : Nat → Ctx → List UVar × Ctx
  | 0, c => ([], c)
  | k + 1, c =>
    let a := c.freshTy
    let b := Ctx.freshTys k a.2
    (a.1 :: b.1, b.2)

/-- `FunctionInferenceContext::instantiate_scheme`, `func_context.rs` 542-558.  The body of a
scheme without parameters is not searched for quantified variables. -/
def Ctx.instantiate (s : PolyTy) (c : Ctx) : Option (Inst × Ctx) :=
  let f := Ctx.freshTys s.params c
  match if s.params = 0 then .ok s.body else substB (f.1.map .uni) s.body with
  | .error _ => none
  | .ok t =>
    let r := freshen s.rows t ⟨f.2.nextRow, []⟩
    some (⟨r.1, f.1, (r.2.map.map Prod.snd).reverse⟩, { f.2 with nextRow := r.2.next })

/-- The loop over the visible schemes that collects the type variables of the environment,
`checker/expr.rs` 1598-1614. -/
def envVars (σ : TLog) (ρ : RLog) (n : Nat) : List PolyTy → List UVar → Option (List UVar)
  | [], out => some out
  | s :: ss, out => match apply σ ρ n s.body with
    | none => none
    | some b => match collect σ ρ n b out with
      | none => none
      | some out' => envVars σ ρ n ss out'

/-- The same for row variables, `checker/expr.rs` 1607-1613. -/
def envRows (σ : TLog) (ρ : RLog) (n : Nat) : List PolyTy → List Nat → Option (List Nat)
  | [], out => some out
  | s :: ss, out => match apply σ ρ n s.body with
    | none => none
    | some b =>
      envRows σ ρ n ss (out ++ (Ty.rowVars b).filter (fun v => ¬ v ∈ s.rows ∧ ¬ v ∈ out))

/-- `generalize_and_bind_pattern_with_ctx`, `checker/expr.rs` 1577-1657, for a pattern that binds
one name to the whole value.  The constraints collected so far are solved by a solver of their
own, and the binding gets the solved type. -/
def Ctx.letBind (n : Nat) (value : Ty) (effect : Row) (c : Ctx) : Option Ctx :=
  match solve n c.cons St.init with
  | none => none
  | some (bs, st) =>
    if false ∈ bs then some { c with schemes := ⟨0, [], value⟩ :: c.schemes }
    else match apply st.σ st.ρ n value with
      | none => none
      | some ty =>
        if (rowApply st.ρ effect).isPure then
          match envVars st.σ st.ρ n c.schemes [], envRows st.σ st.ρ n c.schemes [] with
          | some tvs, some rvs =>
            match generalizeExcluding st.σ st.ρ n ty tvs with
            | none => none
            | some (g, vs) =>
              some { c with schemes :=
                ⟨vs.length, (Ty.rowVars g).filter (fun v => ¬ v ∈ rvs), g⟩ :: c.schemes }
          | _, _ => none
        else some { c with schemes := ⟨0, [], ty⟩ :: c.schemes }

end Verif.Scheme
