import Verif.Types.Model

/-!
# The type constraint solver

Models `crates/tribute-front/src/typeck/solver.rs`: the two substitutions, their application,
the occurs checks, unification of types and effect rows, and the constraint loop.

A hash map is an association list with the newest entry first: `insert` is `cons` and `get`
finds the first entry, so an overwritten binding stays in the list but is never found.

The recursive functions of the solver follow variable bindings and need not terminate, so they
take a fuel argument and answer `none` when it runs out.  A run of the program that terminates
is a run with some amount of fuel; `none` for every amount is divergence (in the program, a
stack overflow).
-/

namespace Verif.Solver
open Verif.Types

/-- `TypeSubst`, `solver.rs` 112-155. -/
abbrev TLog := List (UVar × Ty)
/-- `RowSubst`, `solver.rs` 668-688. -/
abbrev RLog := List (Nat × Row)

/-! ## Iteration with failure -/

/-- `iter().map(f).collect()` where `f` may run out of fuel. -/
def mapO {α β : Type} (f : α → Option β) : List α → Option (List β)
  | [] => some []
  | a :: as => match f a with
    | none => none
    | some b => match mapO f as with
      | none => none
      | some bs => some (b :: bs)

/-- `iter().any(f)`, short-circuiting. -/
def anyO {α : Type} (f : α → Option Bool) : List α → Option Bool
  | [] => some false
  | a :: as => match f a with
    | none => none
    | some true => some true
    | some false => anyO f as

/-- `iter().zip(..).all(f)`, short-circuiting. -/
def allO₂ (f : Ty → Ty → Option Bool) : List Ty → List Ty → Option Bool
  | a :: as, b :: bs => match f a b with
    | none => none
    | some false => some false
    | some true => allO₂ f as bs
  | _, _ => some true

/-- `a || b`, short-circuiting. -/
def orO (a : Option Bool) (b : Option Bool) : Option Bool :=
  match a with
  | none => none
  | some true => some true
  | some false => b

/-! ## Substitutions -/

/-- The inner loop of `RowSubst::apply`, `solver.rs` 703-708: append the effects that are not
there yet. -/
def addNew (acc : List Eff) : List Eff → List Eff
  | [] => acc
  | e :: es => if e ∈ acc then addNew acc es else addNew (acc ++ [e]) es

/-- The loop of `RowSubst::apply`, `solver.rs` 691-713.  Each round visits a variable that has a
binding and was not visited before, so `ρ.length + 1` rounds are enough
(`rowLoop_fuel` in `Exists.lean`). -/
def rowLoop (ρ : RLog) : Nat → List Nat → Row → Row
  | 0, _, row => row
  | n + 1, visited, row =>
    match row.rest with
    | none => row
    | some v => match ρ.lookup v with
      | none => row
      | some s =>
        if v ∈ visited then row
        else rowLoop ρ n (v :: visited) ⟨addNew row.effects s.effects, s.rest⟩

/-- `RowSubst::apply`, `solver.rs` 691-713. -/
def rowApply (ρ : RLog) (row : Row) : Row := rowLoop ρ (ρ.length + 1) [] row

/-- `map_effect_row_type_args`, `solver.rs` 21-42, on the list of effects. -/
def mapArgs (f : Ty → Option Ty) (es : List Eff) : Option (List Eff) :=
  mapO (fun e => match mapO f e.args with
    | none => none
    | some as => some (.mk e.ability as)) es

/-- `TypeSubst::apply_with_rows`, `solver.rs` 167-257; `TypeSubst::apply` (162-164) is the case
`ρ = []`. -/
def apply (σ : TLog) (ρ : RLog) : Nat → Ty → Option Ty
  | 0, _ => none
  | n + 1, .uni v => match σ.lookup v with
    | some t => apply σ ρ n t
    | none => some (.uni v)
  | n + 1, .node h ks es r =>
    match mapO (apply σ ρ n) ks with
    | none => none
    | some ks' =>
      match mapArgs (apply σ ρ n) (rowApply ρ ⟨es, r⟩).effects with
      | none => none
      | some es' => some (.node h ks' es' (rowApply ρ ⟨es, r⟩).rest)

/-- `apply_type_subst_to_row`, `solver.rs` 814-816. -/
def applyArgs (σ : TLog) (n : Nat) (r : Row) : Option Row :=
  match mapArgs (apply σ [] n) r.effects with
  | none => none
  | some es => some ⟨es, r.rest⟩

/-! ## Occurs checks -/

/-- `occurs_in` and `occurs_in_effect_row`, `solver.rs` 1063-1101. -/
def occursIn (var : UVar) (ρ : RLog) : Nat → Ty → Option Bool
  | 0, _ => none
  | _ + 1, .uni v => some (v == var)
  | n + 1, .node _ ks es r =>
    orO (anyO (occursIn var ρ n) ks)
      (anyO (fun e => anyO (occursIn var ρ n) e.args) (rowApply ρ ⟨es, r⟩).effects)

/-- `row_occurs_in_type`, `solver.rs` 1126-1162, with `row_occurs_in` inlined.  `Func` looks at
its row first, `Continuation` last. -/
def rowOccT (var : Nat) (σ : TLog) (ρ : RLog) : Nat → Ty → Option Bool
  | 0, _ => none
  | n + 1, .uni v => match σ.lookup v with
    | some t => rowOccT var σ ρ n t
    | none => some false
  | n + 1, .node h ks es r =>
    let row := rowApply ρ ⟨es, r⟩
    let inRow := if row.rest = some var then some true
      else anyO (fun e => anyO (rowOccT var σ ρ n) e.args) row.effects
    if h = .cont then orO (anyO (rowOccT var σ ρ n) ks) inRow
    else orO inRow (anyO (rowOccT var σ ρ n) ks)

/-- `row_occurs_in`, `solver.rs` 1104-1124. -/
def rowOccursIn (var : Nat) (σ : TLog) (ρ : RLog) (n : Nat) (row : Row) : Option Bool :=
  let row := rowApply ρ row
  if row.rest = some var then some true
  else anyO (fun e => anyO (rowOccT var σ ρ n) e.args) row.effects

/-! ## Trial unification -/

/-- The pairs of kinds that are compared child by child, `solver.rs` 936-1043 and 1400-1476.
Names and calling conventions are ignored.  Equal primitive kinds never get there (equal types
were accepted before). -/
def sameHead : Head → Head → Bool
  | .prim p, .prim q => p == q
  | .named i _, .named j _ => i == j
  | .func _, .func _ => true
  | .tuple, .tuple => true
  | .app, .app => true
  | .cont, .cont => true
  | _, _ => false

/-- `types_unifiable`, `solver.rs` 1391-1477.  Simplification: for `App` the number of arguments
is compared before the constructors. -/
def unifiable (σ : TLog) : Nat → Ty → Ty → Option Bool
  | 0, _, _ => none
  | n + 1, t1, t2 =>
    match apply σ [] n t1, apply σ [] n t2 with
    | some a, some b =>
      if a = b then some true
      else match a, b with
        | .uni _, _ => some true
        | _, .uni _ => some true
        | .node h ks _ _, .node h' ks' _ _ =>
          if h = .error ∨ h' = .error then some true
          else if h = .never ∨ h' = .never then some true
          else if sameHead h h' ∧ ks.length = ks'.length then allO₂ (unifiable σ n) ks ks'
          else some false
    | _, _ => none

/-! ## Unification -/

/-- The state of `TypeSolver`, `solver.rs` 717-725.  The counter is unbounded here; area
`Fresh` models its overflow. -/
structure St where
  σ : TLog
  ρ : RLog
  next : Nat
  deriving DecidableEq

/-- `TypeSolver::new`, `solver.rs` 729-736. -/
def St.init : St := ⟨[], [], 0⟩

/-- The outcome of a unification: whether it succeeded, and the state it leaves (bindings made
before a failure stay).  `none` is divergence. -/
abbrev Res := Option (Bool × St)

/-- `a?; k`. -/
def andThen (r : Res) (k : St → Res) : Res :=
  match r with
  | none => none
  | some (false, s) => some (false, s)
  | some (true, s) => k s

/-- `for (a, b) in as.iter().zip(bs) { unify(a, b)?; }`. -/
def unifyL (u : Ty → Ty → St → Res) : List Ty → List Ty → St → Res
  | a :: as, b :: bs, st => andThen (u a b st) (unifyL u as bs)
  | _, _, st => some (true, st)

/-- `bind_type_var`, `solver.rs` 1053-1060. -/
def bindVar (n : Nat) (v : UVar) (t : Ty) (st : St) : Res :=
  match occursIn v st.ρ n t with
  | none => none
  | some true => some (false, st)
  | some false => some (true, { st with σ := (v, t) :: st.σ })

/-- The search for a matching effect among the candidates of the same ability and the
unification of its arguments, `solver.rs` 1355-1374 and 1503-1518.  The outer option is
divergence; `some none` says no candidate matches.  `p` is `types_unifiable` and `u`
`unify_types`, with the candidate's argument second. -/
def tryFirst (p : TLog → Ty → Ty → Option Bool) (u : Ty → Ty → St → Res) (as : List Ty) :
    List Eff → St → Option (Option (Bool × St))
  | [], _ => some none
  | e :: es, st =>
    match allO₂ (p st.σ) as e.args with
    | none => none
    | some false => tryFirst p u as es st
    | some true => match unifyL u as e.args st with
      | none => none
      | some r => some (some r)

/-- The loop of `unify_effects_as_sets`, `solver.rs` 1331-1385. -/
def asSetsLoop (p : TLog → Ty → Ty → Option Bool) (u : Ty → Ty → St → Res) (es2 : List Eff) :
    List Eff → St → Res
  | [], st => some (true, st)
  | e1 :: es1, st =>
    let same := es2.filter (fun e2 => e1.ability == e2.ability)
    if same.isEmpty then some (false, st)
    else if same.any (fun e2 => e1.args.length != e2.args.length) then some (false, st)
    else match tryFirst p u e1.args same st with
      | none => none
      | some none => some (false, st)
      | some (some (false, st')) => some (false, st')
      | some (some (true, st')) => asSetsLoop p u es2 es1 st'

/-- `unify_effects_as_sets`, `solver.rs` 1316-1386. -/
def asSets (p : TLog → Ty → Ty → Option Bool) (u : Ty → Ty → St → Res) (es1 es2 : List Eff)
    (st : St) : Res :=
  if es1.length ≠ es2.length then some (false, st) else asSetsLoop p u es2 es1 st

/-- `compute_effect_difference_with_unify`, `solver.rs` 1482-1526: the effects of `list2` that
match nothing in `list1`.  `none` in the result list stands for an error. -/
def diffLoop (p : TLog → Ty → Ty → Option Bool) (u : Ty → Ty → St → Res) (list1 : List Eff) :
    List Eff → St → Option (Option (List Eff) × St)
  | [], st => some (some [], st)
  | e2 :: es2, st =>
    let same := list1.filter (fun e1 => e1.ability == e2.ability)
    if same.any (fun e1 => e1.args.length != e2.args.length) then some (none, st)
    else match tryFirst (fun σ a b => p σ b a) (fun a b => u b a) e2.args same st with
      | none => none
      | some (some (false, st')) => some (none, st')
      | some (some (true, st')) => diffLoop p u list1 es2 st'
      | some none => match diffLoop p u list1 es2 st with
        | none => none
        | some (none, st') => some (none, st')
        | some (some only, st') => some (some (e2 :: only), st')

/-- The inner loop of `compute_effect_split_with_unify`, `solver.rs` 1556-1578: the first still
unmatched effect of `list2` with the same ability and matching arguments.  The flags
`matched_in_list2` are modelled by the list of unmatched effects, in order; a match removes the
effect. -/
def pick (p : TLog → Ty → Ty → Option Bool) (u : Ty → Ty → St → Res) (e1 : Eff) :
    List Eff → St → Option (Option (Bool × St × List Eff))
  | [], _ => some none
  | e2 :: es2, st =>
    if e1.ability ≠ e2.ability then
      match pick p u e1 es2 st with
      | none => none
      | some none => some none
      | some (some (b, st', rem)) => some (some (b, st', e2 :: rem))
    else match allO₂ (p st.σ) e1.args e2.args with
      | none => none
      | some true => match unifyL u e1.args e2.args st with
        | none => none
        | some (b, st') => some (some (b, st', es2))
      | some false =>
        match pick p u e1 es2 st with
        | none => none
        | some none => some none
        | some (some (b, st', rem)) => some (some (b, st', e2 :: rem))

/-- `compute_effect_split_with_unify`, `solver.rs` 1531-1589: `(only_list1, only_list2)`; the
arity check looks at the whole of `list2`. -/
def splitLoop (p : TLog → Ty → Ty → Option Bool) (u : Ty → Ty → St → Res) (list2 : List Eff) :
    List Eff → List Eff → St → Option (Option (List Eff × List Eff) × St)
  | [], rem, st => some (some ([], rem), st)
  | e1 :: es1, rem, st =>
    if (list2.filter (fun e2 => e2.ability == e1.ability)).any
        (fun e2 => e1.args.length != e2.args.length) then some (none, st)
    else match pick p u e1 rem st with
      | none => none
      | some (some (false, st', _)) => some (none, st')
      | some (some (true, st', rem')) => splitLoop p u list2 es1 rem' st'
      | some none => match splitLoop p u list2 es1 rem st with
        | none => none
        | some (none, st') => some (none, st')
        | some (some (only1, only2), st') => some (some (e1 :: only1, only2), st')

/-- The end of the closed/open case of `unify_rows`, `solver.rs` 1216-1230 and 1257-1269: `small`
are the effects of the open row with tail `v`, `big` those of the closed one. -/
def bindDiff (p : TLog → Ty → Ty → Option Bool) (u : Ty → Ty → St → Res)
    (v : Nat) (small big : List Eff) (st : St) : Res :=
  match diffLoop p u small big st with
  | none => none
  | some (none, st') => some (false, st')
  | some (some only, st') =>
    if big.length - only.length ≠ small.length then some (false, st')
    else some (true, { st' with ρ := (v, ⟨only, none⟩) :: st'.ρ })

/-- The two-open-rows case of `unify_rows`, `solver.rs` 1290-1305. -/
def bindSplit (p : TLog → Ty → Ty → Option Bool) (u : Ty → Ty → St → Res)
    (v1 v2 : Nat) (es1 es2 : List Eff) (st : St) : Res :=
  match splitLoop p u es2 es1 es2 st with
  | none => none
  | some (none, st') => some (false, st')
  | some (some (only1, only2), st') =>
    some (true, { σ := st'.σ
                  ρ := (v2, ⟨only1, some st'.next⟩) :: (v1, ⟨only2, some st'.next⟩) :: st'.ρ
                  next := st'.next + 1 })

/-- `unify_rows` on the two rows after substitution, `solver.rs` 1188-1308.  (Two equal rows,
in particular two pure ones, are accepted first.) -/
def unifyRows' (n : Nat) (p : TLog → Ty → Ty → Option Bool) (u : Ty → Ty → St → Res)
    (r1 r2 : Row) (st : St) : Res :=
  if r1 = r2 then some (true, st)
  else match r1.rest, r2.rest with
    | none, none => asSets p u r1.effects r2.effects st
    | some v1, none =>
      match rowOccursIn v1 st.σ st.ρ n r2 with
      | none => none
      | some true => some (false, st)
      | some false => bindDiff p u v1 r1.effects r2.effects st
    | none, some v2 =>
      if r1.isPure ∧ r2.effects ≠ [] then some (true, st)
      else match rowOccursIn v2 st.σ st.ρ n r1 with
        | none => none
        | some true => some (false, st)
        | some false => bindDiff p u v2 r2.effects r1.effects st
    | some v1, some v2 =>
      if v1 = v2 then asSets p u r1.effects r2.effects st
      else match orO (rowOccursIn v1 st.σ st.ρ n r2) (rowOccursIn v2 st.σ st.ρ n r1) with
        | none => none
        | some true => some (false, st)
        | some false => bindSplit p u v1 v2 r1.effects r2.effects st

/-- `unify_rows`, `solver.rs` 1171-1308, with `unify_types` as a parameter. -/
def unifyRowsWith (n : Nat) (p : TLog → Ty → Ty → Option Bool) (u : Ty → Ty → St → Res)
    (r1 r2 : Row) (st : St) : Res :=
  match applyArgs st.σ n (rowApply st.ρ r1), applyArgs st.σ n (rowApply st.ρ r2) with
  | some r1, some r2 => unifyRows' n p u r1 r2 st
  | _, _ => none

/-- The structural cases of `unify_types`, `solver.rs` 936-1043, for two different kinds that are
neither variables nor wildcards.  For `App` the constructors are unified before the numbers of
arguments are compared; the other kinds compare the numbers first. -/
def unifyNodes (n : Nat) (p : TLog → Ty → Ty → Option Bool) (u : Ty → Ty → St → Res)
    (h h' : Head) (ks ks' : List Ty) (row row' : Row) (st : St) : Res :=
  if sameHead h h' = false then some (false, st)
  else if ks.length ≠ ks'.length then
    if h = .app then andThen (unifyL u (ks.take 1) (ks'.take 1) st) (fun s => some (false, s))
    else some (false, st)
  else andThen (unifyL u ks ks' st) (unifyRowsWith n p u row row')

/-- Is this a quantified variable?  `solver.rs` 918-921. -/
def Head.quantified : Head → Bool
  | .bound _ => true
  | .localBound .. => true
  | _ => false

/-- `unify_types`, `solver.rs` 895-1050.  The `debug_assert!` on quantified variables is modelled
as in a release build: the equation is rejected. -/
def unify : Nat → Ty → Ty → St → Res
  | 0, _, _, _ => none
  | n + 1, t1, t2, st =>
    match apply st.σ [] n t1, apply st.σ [] n t2 with
    | some a, some b =>
      if a = b then some (true, st)
      else match a, b with
        | .uni v, b => bindVar n v b st
        | a, .uni v => bindVar n v a st
        | .node h ks es r, .node h' ks' es' r' =>
          if Head.quantified h ∨ Head.quantified h' then some (false, st)
          else if h = .error ∨ h' = .error then some (true, st)
          else if h = .never ∨ h' = .never then some (true, st)
          else unifyNodes n (fun σ => unifiable σ n) (unify n) h h' ks ks' ⟨es, r⟩ ⟨es', r'⟩ st
    | _, _ => none

/-- `unify_rows`, `solver.rs` 1171-1308. -/
def unifyRows (n : Nat) (r1 r2 : Row) (st : St) : Res :=
  unifyRowsWith n (fun σ => unifiable σ n) (unify n) r1 r2 st

/-! ## Constraints -/

mutual
/-- `collect_effect_vars`, `ast/types.rs` 408-467, without the removal of duplicates (the caller
takes a maximum). -/
def Ty.rowVars : Ty → List Nat
  | .uni _ => []
  | .node _ ks es r => Ty.rowVarsL ks ++ Eff.rowVarsL es ++ r.toList
def Eff.rowVars : Eff → List Nat
  | .mk _ as => Ty.rowVarsL as
def Ty.rowVarsL : List Ty → List Nat
  | [] => []
  | t :: ts => Ty.rowVars t ++ Ty.rowVarsL ts
def Eff.rowVarsL : List Eff → List Nat
  | [] => []
  | t :: ts => Eff.rowVars t ++ Eff.rowVarsL ts
end

/-- The row variables of a row, in the order of `reserve_effect_vars_in_row`,
`solver.rs` 780-789. -/
def Row.rowVars (r : Row) : List Nat := r.rest.toList ++ Eff.rowVarsL r.effects

/-- `Constraint`, `constraint.rs` 36-52.  Origins only label errors; `And` is processed
constraint by constraint in order and is modelled by its flattening. -/
inductive Con
  | teq (a b : Ty)
  | req (a b : Row)

/-- The row variables of a constraint, `reserve_effect_vars_in_constraint`,
`solver.rs` 791-807. -/
def Con.rowVars : Con → List Nat
  | .teq a b => Ty.rowVars a ++ Ty.rowVars b
  | .req a b => Row.rowVars a ++ Row.rowVars b

/-- `reserve_effect_var`, `solver.rs` 772-778. -/
def reserve (next : Nat) (vs : List Nat) : Nat := vs.foldl (fun m v => max m (v + 1)) next

/-- `solve_constraint_with_origin`, `solver.rs` 850-892. -/
def solveCon (n : Nat) : Con → St → Res
  | .teq a b, st => unify n a b st
  | .req a b, st => unifyRows n a b st

/-- The second loop of `solve_with_origin`, `solver.rs` 836-841: every constraint is attempted;
the answers are listed. -/
def solveLoop (n : Nat) : List Con → St → Option (List Bool × St)
  | [], st => some ([], st)
  | c :: cs, st => match solveCon n c st with
    | none => none
    | some (b, st') => match solveLoop n cs st' with
      | none => none
      | some (bs, st'') => some (b :: bs, st'')

/-- `solve`, `solver.rs` 823-847: the row variables of all constraints are reserved first.  The
answer is `Ok` when every constraint was accepted. -/
def solve (n : Nat) (cs : List Con) (st : St) : Option (List Bool × St) :=
  solveLoop n cs { st with next := reserve st.next (cs.flatMap Con.rowVars) }

end Verif.Solver
