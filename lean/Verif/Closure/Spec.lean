import Verif.Closure.Model
/-!
# What a program with closures means

A `closure.lambda` is a function that sees the values in scope where it stands: calling it runs its body in
the scope it was made in, with its parameters bound to the arguments.  Nothing here mentions environments
packed into structures.

The continuations the frontend leaves untagged (`Slot.legacy`) differ in one point, which
lower_closure_lambda.rs 160-162 and 433-440 state: the evidence of the function they stand in is, in
their bodies, the evidence of whoever calls them — unless they capture it as an ordinary value.

`eval` follows one activation and leaves calls to `enter`; `run n` allows calls nested `n` deep.  Values
without functions in them (`base`) are arbitrary, and so are the operations on them, which read and change
an arbitrary state (`Sem`).
-/
namespace Verif.Closure
open Verif.CallConv (Conv)

variable {B σ : Type}

/-- The operations on data without functions. -/
structure Sem (B σ : Type) where
  prim : Nat → List B → σ → Option (σ × B)
  truth : B → Bool

inductive Val (B : Type) where
  | base (b : B)
  | null
  | data (vs : List (Val B))
  /-- a function without environment -/
  | fn (f : Sym)
  /-- a lambda, with the scope it was made in; `rebinds` is the evidence its caller provides -/
  | clo (env : List (Var × Val B)) (rebinds : Option Var) (slot : Slot) (ps : List (Var × Ty)) (body : Code)
  /-- what `closure.new` makes -/
  | pair (f : Sym) (env : Val B) (slot : Slot)

abbrev Env (B : Type) := List (Var × Val B)

def look : Env B → Var → Option (Val B)
  | [], _ => none
  | (x, v) :: env, y => if x = y then some v else look env y

def bindAll : Env B → List Var → List (Val B) → Env B
  | env, x :: xs, v :: vs => bindAll ((x, v) :: env) xs vs
  | env, _, _ => env

inductive Res (B σ : Type) where
  /-- the allowed depth of calls is used up -/
  | out
  /-- an ill-formed step: a value that is not in scope, a call with the wrong convention, … -/
  | err
  | ok (s : σ) (v : Val B)

/-- An activation: code, what is in scope, the variable that holds the evidence and the evidence. -/
structure Frame (B : Type) where
  code : Code
  env : Env B
  evVar : Option Var
  evVal : Option (Val B)

/-- The function a symbol names. -/
def Prog.find (p : Prog) (f : Sym) : Option Func := (p.fns.find? fun g => g.1 == f).map Prod.snd

/-- A function or a lambda has evidence if that is its first parameter. -/
def firstEvidence : List (Var × Ty) → Option Var
  | [] => none
  | (v, t) :: _ => if t = evTy then some v else none

/-- The agreement between a closure and its calls: both are marked with a convention, and the environment
stands where the closure's type says, or else where the convention says (first, after the evidence if there
is any); or neither is marked. -/
def contract (conv : Option Conv) (ty : CloTy) : Option Slot :=
  match ty.prov, conv with
  | none, none => some .legacy
  | none, some .direct => some (.at .direct 0)
  | none, some .evidenceDirect => some (.at .evidenceDirect 1)
  | none, some .cps => some (.at .cps 1)
  | some _, none => none
  | some p, some c =>
    match ty.index with
    | some i => if c = p then some (.at c i) else none
    | none => none

/-- The evidence an untagged lambda takes from its caller. -/
def rebinds : Slot → Option Var → List Var → Option Var
  | .legacy, some e, caps => if e ∈ caps then none else some e
  | _, _, _ => none

/-- The evidence variable inside a lambda. -/
def innerEv : Slot → Option Var → List (Var × Ty) → Option Var
  | .legacy, re, _ => re
  | .at _ 0, _, _ => none
  | .at _ (_ + 1), _, ps => firstEvidence ps

/-- Calling a function of the program. -/
def callFn (p : Prog) (f : Sym) (args : List (Val B)) : Option (Frame B) :=
  match p.find f with
  | none => none
  | some fn =>
    if args.length = fn.params.length then
      let env := bindAll [] (fn.params.map Prod.fst) args
      some ⟨fn.body, env, firstEvidence fn.params, (firstEvidence fn.params).bind (look env)⟩
    else none

/-- Putting the environment among the arguments. -/
def withEnv : Slot → Val B → Val B → List (Val B) → Option (List (Val B))
  | .legacy, ev, env, args => some (ev :: env :: args)
  | .at _ i, _, env, args => if i ≤ args.length then some (args.take i ++ env :: args.drop i) else none

/-- The caller's evidence in the scope of an untagged lambda. -/
def bindEv : Option Var → Val B → Env B → Env B
  | some x, e, env => (x, e) :: env
  | none, _, env => env

/-- Calling a value: a lambda runs in the scope it was made in. -/
def callVal (p : Prog) (ev : Option (Val B)) (conv : Option Conv) (site : Site) (callee : Val B)
    (args : List (Val B)) : Option (Frame B) :=
  match callee with
  | .fn f => if site.isClosure then none else callFn p f args
  | .clo env re slot ps body =>
    if site.isClosure ∧ contract conv site.ty = some slot ∧ args.length = ps.length then
      match slot with
      | .legacy =>
        let e := ev.getD .null
        some ⟨body, bindAll (bindEv re e env) (ps.map Prod.fst) args, re, some e⟩
      | .at c i =>
        let env := bindAll env (ps.map Prod.fst) args
        let x := innerEv (.at c i) none ps
        some ⟨body, env, x, x.bind (look env)⟩
    else none
  | .pair f env slot =>
    if site.isClosure ∧ contract conv site.ty = some slot then
      (withEnv slot (ev.getD .null) env args).bind (callFn p f)
    else none
  | _ => none

/-- What an operation does: it gives a value, or enters an activation. -/
inductive Act (B σ : Type) where
  | val (s : σ) (v : Val B)
  | enter (fr : Frame B)
  | err

def bases : List (Val B) → Option (List B)
  | [] => some []
  | .base b :: vs => (bases vs).map (b :: ·)
  | _ :: _ => none

def Act.ofFrame : Option (Frame B) → Act B σ
  | some fr => .enter fr
  | none => .err

def act (S : Sem B σ) (p : Prog) (ev : Option (Val B)) (s : σ) : Opr → List (Val B) → Act B σ
  | .prim q, vs =>
    match (bases vs).bind (fun bs => S.prim q bs s) with
    | some (s', b) => .val s' (.base b)
    | none => .err
  | .pack, vs => .val s (.data vs)
  | .get i, [.data vs] =>
    match vs[i]? with
    | some v => .val s v
    | none => .err
  | .null, [] => .val s .null
  | .cast, [v] => .val s v
  | .call f, vs => .ofFrame (callFn p f vs)
  | .callInd conv site, v :: vs => .ofFrame (callVal p ev conv site v vs)
  | .closureNew f conv ty, [v] =>
    match contract conv ty with
    | some slot => .val s (.pair f v slot)
    | none => .err
  | .constant f, [] => .val s (.fn f)
  | _, _ => .err

def looks (env : Env B) : List Var → Option (List (Val B))
  | [] => some []
  | x :: xs =>
    match look env x, looks env xs with
    | some v, some vs => some (v :: vs)
    | _, _ => none

/-- Going on with a result. -/
def Res.andThen (r : Res B σ) (k : σ → Val B → Res B σ) : Res B σ :=
  match r with
  | .ok s v => k s v
  | .out => .out
  | .err => .err

/-- Going on after an operation. -/
def Act.andThen (enter : Frame B → σ → Res B σ) (s : σ) (a : Act B σ) (k : σ → Val B → Res B σ) : Res B σ :=
  match a with
  | .val s' v => k s' v
  | .enter fr => (enter fr s).andThen k
  | .err => .err

/-- One activation. -/
def eval (S : Sem B σ) (p : Prog) (enter : Frame B → σ → Res B σ) (evVar : Option Var)
    (evVal : Option (Val B)) : Code → Env B → σ → Res B σ
  | .ret x, env, s =>
    match look env x with
    | some v => .ok s v
    | none => .err
  | .tail conv site args, env, s =>
    match looks env args with
    | none => .err
    | some vs => (act S p evVal s (.callInd conv site) vs).andThen enter s .ok
  | .op r o args k, env, s =>
    match looks env args with
    | none => .err
    | some vs => (act S p evVal s o vs).andThen enter s fun s' v => eval S p enter evVar evVal k ((r, v) :: env) s'
  | .cond r c t e k, env, s =>
    match look env c with
    | some (.base b) =>
      (if S.truth b then eval S p enter evVar evVal t env s else eval S p enter evVar evVal e env s).andThen
        fun s' v => eval S p enter evVar evVal k ((r, v) :: env) s'
    | _ => .err
  | .lambda r caps conv ty ps body k, env, s =>
    match contract conv ty, looks env caps with
    | some slot, some _ =>
      eval S p enter evVar evVal k ((r, .clo env (rebinds slot evVar caps) slot ps body) :: env) s
    | _, _ => .err

/-- Running an activation with calls nested at most `n` deep. -/
def run (S : Sem B σ) (p : Prog) : Nat → Frame B → σ → Res B σ
  | 0, _, _ => .out
  | n + 1, fr, s => eval S p (run S p n) fr.evVar fr.evVal fr.code fr.env s

/-- Calling the function `f` of the program with the data `bs`. -/
def result (S : Sem B σ) (p : Prog) (n : Nat) (f : Sym) (bs : List B) (s : σ) : Res B σ :=
  match callFn p f (bs.map .base) with
  | none => .err
  | some fr => run S p n fr s

/-- Two results look the same from outside: both calls are still going on, or both have ended in the same
state with the same data (or both with something else than data). -/
inductive Same : Res B σ → Res B σ → Prop
  | out : Same .out .out
  | ok {s : σ} {v w : Val B} : (∀ b, v = .base b ↔ w = .base b) → Same (.ok s v) (.ok s w)

/-! ## Well-formed programs -/

/-- Every value used is in scope, every value is new when it is defined, and a lambda uses only what it
captures, its parameters and, if it is untagged, the function's evidence.  `ev` is the evidence variable. -/
def Scoped : Option Var → List Var → Code → Prop
  | _, S, .ret x => x ∈ S
  | _, S, .tail _ _ args => ∀ a ∈ args, a ∈ S
  | ev, S, .op r _ args k => (∀ a ∈ args, a ∈ S) ∧ r ∉ S ∧ Scoped ev (r :: S) k
  | ev, S, .cond r c t e k => c ∈ S ∧ Scoped ev S t ∧ Scoped ev S e ∧ r ∉ S ∧ Scoped ev (r :: S) k
  | ev, S, .lambda r caps conv ty ps body k =>
    (∀ a ∈ caps, a ∈ S) ∧ r ∉ S ∧ Scoped ev (r :: S) k ∧
    ∃ slot, contract conv ty = some slot ∧ (ps.map Prod.fst).Nodup ∧
      (∀ x ∈ ps.map Prod.fst, x ∉ caps ++ (rebinds slot ev caps).toList) ∧
      Scoped (innerEv slot (rebinds slot ev caps) ps)
        (ps.map Prod.fst ++ (caps ++ (rebinds slot ev caps).toList)) body

/-- All value references are below `n`. -/
def Below (n : Nat) : Code → Prop
  | .ret x => x < n
  | .tail _ _ args => ∀ a ∈ args, a < n
  | .op r _ args k => (∀ a ∈ args, a < n) ∧ r < n ∧ Below n k
  | .cond r c t e k => c < n ∧ Below n t ∧ Below n e ∧ r < n ∧ Below n k
  | .lambda r caps _ _ ps body k =>
    (∀ a ∈ caps, a < n) ∧ r < n ∧ Below n k ∧ (∀ x ∈ ps.map Prod.fst, x < n) ∧ Below n body

structure Func.WF (n : Nat) (fn : Func) : Prop where
  nodup : (fn.params.map Prod.fst).Nodup
  params : ∀ x ∈ fn.params.map Prod.fst, x < n
  inScope : Scoped (firstEvidence fn.params) (fn.params.map Prod.fst) fn.body
  below : Below n fn.body

structure Prog.WF (p : Prog) : Prop where
  names : (p.fns.map Prod.fst).Nodup
  fns : ∀ f ∈ p.fns, f.2.WF p.next

/-- No function has a name of the shape kept for lifted lambdas. -/
def Prog.PlainNames (p : Prog) : Prop := ∀ f ∈ p.fns, ∀ g n, f.1 ≠ g ++ "::__clam_" ++ toString (n : Nat)

/-- No lambda is left. -/
def NoLambda : Code → Prop
  | .ret _ => True
  | .tail _ _ _ => True
  | .op _ _ _ k => NoLambda k
  | .cond _ _ t e k => NoLambda t ∧ NoLambda e ∧ NoLambda k
  | .lambda _ _ _ _ _ _ _ => False

/-- Every lambda, at any depth, is marked consistently: its type lists its parameters' types, and its
environment's position is among them. -/
def Marked : Code → Prop
  | .ret _ => True
  | .tail _ _ _ => True
  | .op _ _ _ k => Marked k
  | .cond _ _ t e k => Marked t ∧ Marked e ∧ Marked k
  | .lambda _ _ conv ty ps body k =>
    (∃ slot, contract conv ty = some slot ∧ ∀ c i, slot = .at c i → i ≤ ps.length) ∧
    ty.params = ps.map Prod.snd ∧ Marked body ∧ Marked k

/-- No closure operation is left: closures are pairs and calls go to functions. -/
def NoClosure : Code → Prop
  | .ret _ => True
  | .tail _ site _ => site.isClosure = false
  | .op _ o _ k => (∀ f conv ty, o ≠ .closureNew f conv ty) ∧
      (∀ conv site, o = .callInd conv site → site.isClosure = false) ∧ NoClosure k
  | .cond _ _ t e k => NoClosure t ∧ NoClosure e ∧ NoClosure k
  | .lambda _ _ _ _ _ _ _ => False

/-- Every call of a closure is marked consistently, and every tail call of one is marked with its
convention, which is that of general control. -/
def CallsMarked : Code → Prop
  | .ret _ => True
  | .tail conv site args => args ≠ [] ∧ (site.isClosure = site.ty.prov.isSome) ∧
      (site.isClosure = true → conv = some .cps ∧ SiteMarked conv site (args.length - 1))
  | .op _ o args k => (∀ conv site, o = .callInd conv site → args ≠ [] ∧
      (site.ty.prov.isSome = true → site.isClosure = true) ∧
      (site.isClosure = true → SiteMarked conv site (args.length - 1))) ∧ CallsMarked k
  | .cond _ _ t e k => CallsMarked t ∧ CallsMarked e ∧ CallsMarked k
  | .lambda _ _ _ _ _ body k => CallsMarked body ∧ CallsMarked k
where
  /-- The call's marks agree, and it has the arguments they ask for. -/
  SiteMarked (conv : Option Conv) (site : Site) (n : Nat) : Prop :=
    ∃ slot, contract conv site.ty = some slot ∧
      (∀ c i, slot = .at c i → i ≤ n ∧ (if site.ty.prov.isSome then site.ty.params.length = n
        else (match c with | .direct => 0 | .evidenceDirect => 1 | .cps => 2) ≤ n))

end Verif.Closure
