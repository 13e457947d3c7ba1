import Verif.WasmCf.Model

/-
What function bodies with structured control flow mean, what WebAssembly instructions mean, which
instructions a validator accepts, and which bodies satisfy the rules of the IR. Nothing here mentions
the lowering.
-/
namespace Verif.WasmCf

/-- The meaning of everything that is not control flow, left arbitrary: run-time values, the state of
the world, what an operation does (`none`: it traps), truth, and the value read from a name or a local
that was never set, by type. The type nil (0) has the one value `default 0`. -/
structure Interp where
  V : Type
  S : Type
  plain : Nat → List V → S → Option (V × S)
  truth : V → Bool
  default : Ty → V

/-! ## Structured control flow -/

/-- How running operations can end: by reaching the end of the list; by leaving the function; by
`scf.yield`, `scf.continue`, `scf.break`; by a trap; by an error (a region that ends without
terminator, a yield in a loop body, a wrong number of values). -/
inductive Out (V : Type) where
  | fell
  | exit (name : Nat) (vs : List V)
  | yield (vs : List V)
  | cont (vs : List V)
  | brk (v : V)
  | trap
  | stuck

abbrev Env (I : Interp) := Value → I.V
abbrev Res (I : Interp) := Out I.V × Env I × I.S

/-- Define a value. -/
def put {I : Interp} (env : Env I) (x : Value) (v : I.V) : Env I := fun y => if y = x then v else env y

/-- Define the result of an operation. A result of type nil has the value of that type. -/
def give {I : Interp} (ty : Value → Ty) (env : Env I) (r : Value) (v : I.V) : Env I :=
  put env r (if ty r = 0 then I.default 0 else v)

/-- Define block arguments. -/
def puts {I : Interp} (env : Env I) : List Value → List I.V → Env I
  | p :: ps, v :: vs => puts (put env p v) ps vs
  | _, _ => env

/-- The operation ends with these values. Without results they are dropped. -/
def gives {I : Interp} (ty : Value → Ty) (res : List Value) (vs : List I.V) (env : Env I) (s : I.S) :
    Res I :=
  match res, vs with
  | [], _ => (.fell, env, s)
  | [r], [v] => (.fell, give ty env r v, s)
  | [r], [] => if ty r = 0 then (.fell, give ty env r (I.default 0), s) else (.stuck, env, s)
  | _, _ => (.stuck, env, s)

/-- A branch of `scf.if` has ended. -/
def afterBranch {I : Interp} (ty : Value → Ty) (res : List Value) : Option (Res I) → Option (Res I)
  | some (.yield vs, env, s) => some (gives ty res vs env s)
  | some (.fell, env, s) => some (.stuck, env, s)
  | r => r

/-- A loop: `scf.continue` runs the body again with new values, `scf.break` ends the loop. -/
def iterate {I : Interp} (body : Env I → I.S → Option (Res I)) (ty : Value → Ty)
    (res ps : List Value) : Nat → List I.V → Env I → I.S → Option (Res I)
  | 0, _, _, _ => none
  | k + 1, vs, env, s =>
    if vs.length = ps.length then
      match body (puts env ps vs) s with
      | some (.cont vs', env', s') => iterate body ty res ps k vs' env' s'
      | some (.brk v, env', s') => some (gives ty res [v] env' s')
      | some (.yield _, env', s') => some (.stuck, env', s')
      | some (.fell, env', s') => some (.stuck, env', s')
      | r => r
    else some (.stuck, env, s)

mutual
/-- One operation. `n` bounds the rounds of each loop; `none`: the bound was reached. -/
def execOp {I : Interp} (ty : Value → Ty) (n : Nat) : Op → Env I → I.S → Option (Res I)
  | .plain nm as r, env, s =>
    match I.plain nm (as.map env) s with
    | none => some (.trap, env, s)
    | some (v, s') =>
      match r with
      | none => some (.fell, env, s')
      | some r => some (.fell, give ty env r v, s')
  | .ite c res t e, env, s =>
    afterBranch ty res (if I.truth (env c) then execOps ty n t env s else execOps ty n e env s)
  | .loop init res ps body, env, s =>
    iterate (execOps ty n body) ty res ps n (init.map env) env s
  | .yield vs, env, s => some (.yield (vs.map env), env, s)
  | .cont vs, env, s => some (.cont (vs.map env), env, s)
  | .brk v, env, s => some (.brk (env v), env, s)
  | .exit nm as, env, s => some (.exit nm (as.map env), env, s)
/-- The operations of a block one after the other, until one does not go on to the next. -/
def execOps {I : Interp} (ty : Value → Ty) (n : Nat) : List Op → Env I → I.S → Option (Res I)
  | [], env, s => some (.fell, env, s)
  | o :: os, env, s =>
    match execOp ty n o env s with
    | some (.fell, env', s') => execOps ty n os env' s'
    | r => r
end

/-- Called with `args` in state `s`, the function ends with `o` in state `s'`. -/
def Behaves (I : Interp) (f : Func) (args : List I.V) (s : I.S) (o : Out I.V) (s' : I.S) : Prop :=
  ∃ n env', execOps f.ty n f.body (puts (fun v => I.default (f.ty v)) f.params args) s =
    some (o, env', s')

/-! ## WebAssembly -/

/-- How a sequence of instructions can end: at its end, with the operands left on the stack; by a
branch to an enclosing label, with the operands on the stack; by leaving the function; by a trap; by
an error that validation is there to exclude. -/
inductive WOut (V : Type) where
  | fell (stack : List V)
  | br (d : Nat) (stack : List V)
  | exit (name : Nat) (vs : List V)
  | trap
  | stuck

abbrev Store (I : Interp) := Nat → I.V
abbrev WRes (I : Interp) := WOut I.V × Store I × I.S

/-- How many values a block type has. -/
def arity : Option Ty → Nat
  | none => 0
  | some _ => 1

/-- The end of a block or conditional with `k` results entered above the stack `st`: its end needs
exactly `k` operands, a branch to its label takes the topmost `k`, and any other branch goes on
outwards. The top of the stack is the head of the list. -/
def leave {I : Interp} (k : Nat) (st : List I.V) : Option (WRes I) → Option (WRes I)
  | some (.fell st', L, s) => some (if st'.length = k then .fell (st' ++ st) else .stuck, L, s)
  | some (.br 0 st', L, s) =>
    some (if k ≤ st'.length then .fell (st'.take k ++ st) else .stuck, L, s)
  | some (.br (d + 1) st', L, s) => some (.br d st', L, s)
  | r => r

/-- A loop: a branch to its label runs the body again; its end needs exactly `k` operands. -/
def around {I : Interp} (body : Store I → I.S → Option (WRes I)) (k : Nat) (st : List I.V) :
    Nat → Store I → I.S → Option (WRes I)
  | 0, _, _ => none
  | m + 1, L, s =>
    match body L s with
    | some (.br 0 _, L', s') => around body k st m L' s'
    | r => leave k st r

mutual
/-- One instruction. `n` bounds the rounds of each loop. -/
def wexecI {I : Interp} (n : Nat) : Instr → List I.V → Store I → I.S → Option (WRes I)
  | .get i, st, L, s => some (.fell (L i :: st), L, s)
  | .set i, st, L, s =>
    match st with
    | v :: st' => some (.fell st', fun j => if j = i then v else L j, s)
    | [] => some (.stuck, L, s)
  | .op nm as r, st, L, s =>
    if as.length ≤ st.length then
      match I.plain nm (st.take as.length).reverse s with
      | none => some (.trap, L, s)
      | some (v, s') =>
        match r with
        | some _ => some (.fell (v :: st.drop as.length), L, s')
        | none => some (.fell (st.drop as.length), L, s')
    else some (.stuck, L, s)
  | .exit nm as, st, L, s =>
    if as.length ≤ st.length then some (.exit nm (st.take as.length).reverse, L, s)
    else some (.stuck, L, s)
  | .ite r t e, st, L, s =>
    match st with
    | c :: st' =>
      leave (arity r) st' (if I.truth c then wexec n t [] L s else wexec n e [] L s)
    | [] => some (.stuck, L, s)
  | .block r b, st, L, s => leave (arity r) st (wexec n b [] L s)
  | .loop r b, st, L, s => around (wexec n b []) (arity r) st n L s
  | .br d, st, L, s => some (.br d st, L, s)
/-- A sequence of instructions. -/
def wexec {I : Interp} (n : Nat) : List Instr → List I.V → Store I → I.S → Option (WRes I)
  | [], st, L, s => some (.fell st, L, s)
  | i :: is, st, L, s =>
    match wexecI n i st L s with
    | some (.fell st', L', s') => wexec n is st' L' s'
    | r => r
end

/-- Locals at the start of a function: the arguments, then the default values of the types. -/
def start (I : Interp) (types : List (Nat × Ty)) (args : List I.V) : Store I :=
  fun i => match args[i]? with
    | some v => v
    | none => I.default ((types.lookup i).getD 0)

/-- A function with this body and locals, called with `args` in state `s`, ends with `o` in `s'`. -/
def WBehaves (I : Interp) (code : List Instr) (types : List (Nat × Ty)) (args : List I.V) (s : I.S)
    (o : WOut I.V) (s' : I.S) : Prop :=
  ∃ n L, wexec n code [] (start I types args) s = some (o, L, s')

/-! ### Validation -/

/-- The operand stack as the validator sees it: the types above the last point known to be
unreachable, and whether there is such a point (then it may supply operands of any type). -/
abbrev St := List Ty × Bool

def pop (t : Ty) : St → Option St
  | (x :: xs, p) => if x = t then some (xs, p) else none
  | ([], true) => some ([], true)
  | ([], false) => none

def popAny : St → Option St
  | (_ :: xs, p) => some (xs, p)
  | ([], true) => some ([], true)
  | ([], false) => none

def pops : List Ty → St → Option St
  | [], s => some s
  | t :: ts, s => (pop t s).bind (pops ts)

/-- The end of a block: exactly the results are on the stack. -/
def closes (r : Option Ty) (s : St) : Bool :=
  match pops r.toList s with
  | some ([], _) => true
  | _ => false

mutual
/-- Validation of an instruction; `types`: the locals, `labels`: what a branch to each enclosing label
passes, innermost first. -/
def validI (types : List (Nat × Ty)) (labels : List (Option Ty)) : Instr → St → Option St
  | .get i, s => (types.lookup i).map fun t => (t :: s.1, s.2)
  | .set i, s => (types.lookup i).bind fun t => pop t s
  | .op _ as r, s => (pops as.reverse s).map fun s' => (r.toList ++ s'.1, s'.2)
  | .exit _ as, s => (pops as.reverse s).map fun _ => ([], true)
  | .br d, s =>
    match labels[d]? with
    | some r => (pops r.toList s).map fun _ => ([], true)
    | none => none
  | .ite r t e, s =>
    match popAny s, validIs types (r :: labels) t ([], false),
        validIs types (r :: labels) e ([], false) with
    | some s', some a, some b =>
      if closes r a && closes r b then some (r.toList ++ s'.1, s'.2) else none
    | _, _, _ => none
  | .block r b, s =>
    match validIs types (r :: labels) b ([], false) with
    | some a => if closes r a then some (r.toList ++ s.1, s.2) else none
    | none => none
  | .loop r b, s =>
    match validIs types (none :: labels) b ([], false) with
    | some a => if closes r a then some (r.toList ++ s.1, s.2) else none
    | none => none
def validIs (types : List (Nat × Ty)) (labels : List (Option Ty)) : List Instr → St → Option St
  | [], s => some s
  | i :: is, s => (validI types labels i s).bind (validIs types labels is)
end

/-- The validator accepts the body of a function with result `ret`. -/
def Valid (types : List (Nat × Ty)) (ret : Option Ty) (code : List Instr) : Prop :=
  ∃ s, validIs types [ret] code ([], false) = some s ∧ closes ret s = true

/-! ## Rules of the IR -/

mutual
/-- Operands of an operation and of those within it. -/
def Op.uses : Op → List Value
  | .plain _ as _ => as
  | .ite c _ t e => c :: (usesO t ++ usesO e)
  | .loop i _ _ b => i ++ usesO b
  | .yield vs => vs
  | .cont vs => vs
  | .brk v => [v]
  | .exit _ as => as
def usesO : List Op → List Value
  | [] => []
  | o :: os => o.uses ++ usesO os
end

mutual
/-- Values defined by an operation or within it. -/
def Op.defs : Op → List Value
  | .plain _ _ r => r.toList
  | .ite _ r t e => r ++ (defsO t ++ defsO e)
  | .loop _ r ps b => r ++ (ps ++ defsO b)
  | _ => []
def defsO : List Op → List Value
  | [] => []
  | o :: os => o.defs ++ defsO os
end

/-- Terminators of branches and loop bodies. -/
def Op.isTerm : Op → Bool
  | .yield _ | .cont _ | .brk _ => true
  | _ => false

mutual
/-- Control does not go on behind this operation: a terminator, or `scf.if` with two branches that do
not yield. -/
def Op.quits : Op → Bool
  | .cont _ | .brk _ | .exit _ _ => true
  | .ite _ _ t e => quitsO t && quitsO e
  | _ => false
/-- Control leaves these operations by the last one, and not by a yield. -/
def quitsO : List Op → Bool
  | [] => false
  | [o] => o.quits
  | _ :: os => quitsO os
end

/-- A branch ends with a yield or with something control does not go behind. -/
def ended (os : List Op) : Prop := quitsO os = true ∨ ∃ vs, os.getLast? = some (.yield vs)

/-- A yield gives the results of the `scf.if`: one value of its type; if the type is nil or there is no
result, at most one value. -/
def fits (ty : Value → Ty) (res vs : List Value) : Prop :=
  match res with
  | [] => vs.length ≤ 1
  | r :: _ => vs.length ≤ 1 ∧ (ty r ≠ 0 → vs.map ty = [ty r])

mutual
/-- The rules for one operation. `y`: the results of the `scf.if` in whose branch it stands; `l`: the
arguments and results of the loop in which it stands. -/
def Op.rules (ty : Value → Ty) (y : Option (List Value)) (l : Option (List Value × List Value)) :
    Op → Prop
  | .plain _ _ _ => True
  | .exit _ _ => True
  | .ite _ res t e =>
    res.length ≤ 1 ∧ ended t ∧ ended e ∧ rulesO ty (some res) l t ∧ rulesO ty (some res) l e
  | .loop init res ps body =>
    res.length ≤ 1 ∧ init.map ty = ps.map ty ∧ (∀ v ∈ init, v ∉ ps) ∧ quitsO body = true ∧
      rulesO ty none (some (ps, res)) body
  | .yield vs => ∃ res, y = some res ∧ fits ty res vs
  | .cont vs => ∃ ps res, l = some (ps, res) ∧ vs.map ty = ps.map ty
  | .brk v => ∃ ps res, l = some (ps, res) ∧ ∀ r ∈ res, ty v = ty r
def rulesO (ty : Value → Ty) (y : Option (List Value)) (l : Option (List Value × List Value)) :
    List Op → Prop
  | [] => True
  | o :: os => o.rules ty y l ∧ (o.isTerm = true → os = []) ∧ rulesO ty y l os
end

/-- A function that satisfies the rules: every value has one definition, every value used is defined,
no operation breaks the rules, control does not reach the end of the body. -/
structure WF (f : Func) : Prop where
  once : (f.params ++ defsO f.body).Nodup
  defined : ∀ v ∈ usesO f.body, v ∈ f.params ++ defsO f.body
  rules : rulesO f.ty none none f.body
  ends : quitsO f.body = true

/-! ## Restrictions under which the lowering is right -/

mutual
/-- `scf.continue` and `scf.break` stand under exactly one `scf.if` in their loop. `k`: under how many
the operation stands. -/
def Op.oneIf (k : Nat) : Op → Prop
  | .ite _ _ t e => oneIfO (k + 1) t ∧ oneIfO (k + 1) e
  | .loop _ _ _ b => oneIfO 0 b
  | .cont _ => k = 1
  | .brk _ => k = 1
  | _ => True
def oneIfO (k : Nat) : List Op → Prop
  | [] => True
  | o :: os => o.oneIf k ∧ oneIfO k os
end

mutual
/-- The first branch of an `scf.if` with a result (of another type than nil) does not end with
`scf.continue`, `scf.break` or an operation that leaves the function. -/
def Op.thenYields (ty : Value → Ty) : Op → Prop
  | .ite _ res t e =>
    (∀ r ∈ res, ty r ≠ 0 → ∃ o, t.getLast? = some o ∧ match o with
      | .yield _ | .ite .. => True
      | _ => False) ∧ thenYieldsO ty t ∧ thenYieldsO ty e
  | .loop _ _ _ b => thenYieldsO ty b
  | _ => True
def thenYieldsO (ty : Value → Ty) : List Op → Prop
  | [] => True
  | o :: os => o.thenYields ty ∧ thenYieldsO ty os
end

/-- The list ends with a terminator or an operation that leaves the function. -/
def endsPlainly (os : List Op) : Prop :=
  ∃ o, os.getLast? = some o ∧ match o with
    | .yield _ | .cont _ | .brk _ | .exit .. => True
    | _ => False

mutual
/-- Where a result (of another type than nil) is wanted, regions do not end with an `scf.if`. -/
def Op.plainEnds (ty : Value → Ty) : Op → Prop
  | .ite _ res t e =>
    ((∃ r ∈ res, ty r ≠ 0) → endsPlainly t ∧ endsPlainly e) ∧ plainEndsO ty t ∧ plainEndsO ty e
  | .loop _ res _ b => ((∃ r ∈ res, ty r ≠ 0) → endsPlainly b) ∧ plainEndsO ty b
  | _ => True
def plainEndsO (ty : Value → Ty) : List Op → Prop
  | [] => True
  | o :: os => o.plainEnds ty ∧ plainEndsO ty os
end

mutual
/-- No `scf.continue` passes more than one value. -/
def Op.narrow : Op → Prop
  | .ite _ _ t e => narrowO t ∧ narrowO e
  | .loop _ _ _ b => narrowO b
  | .cont vs => vs.length ≤ 1
  | _ => True
def narrowO : List Op → Prop
  | [] => True
  | o :: os => o.narrow ∧ narrowO os
end

end Verif.WasmCf
