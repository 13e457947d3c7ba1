import Verif.Instances.Model

/-!
# Running a program

A machine that runs the programs of `Model.lean`: the meaning a user gives to functions, closures,
pattern matching and handlers.  It never looks at types or node ids.  Calls of functions without a
body and operations no handler takes are answered from outside and recorded.
-/

namespace Verif.Instances

/-- What a piece of data is made with. -/
inductive Tag
  | lit (v : Nat)
  | ctor (c : Nat)
  | tuple
  | list
  | record (c : Nat) (names : List Nat)
  deriving DecidableEq

/-- What can be seen of a value from outside. -/
inductive Shape
  | data (t : Tag) (as : List Shape)
  | opaque

/-- A question to the outside and the arguments that came with it. -/
inductive Ask
  | ext (symbol : Name)
  | op (a o : Nat)

abbrev Event := Ask × List Shape

/-- The outside: the symbol an external name is linked to, and the answers, which may depend on
everything asked before. -/
structure Outside where
  link : Name → Option Name
  answer : List Event → Option Shape

/-- What a finished list of evaluated expressions is for. -/
inductive Build
  | call
  | data (t : Tag)
  | record (c : Nat) (names : List Nat) (spread : Bool)
  deriving DecidableEq

mutual
inductive Val
  | data (t : Tag) (as : List Val)
  | fn (f : Name)
  | op (a o : Nat)
  | clo (ps : List Nat) (b : Expr) (env : VEnv)
  | kont (fs : List Frame)
inductive VEnv
  | nil
  | cons (l : Nat) (v : Val) (env : VEnv)
inductive Frame
  | args (b : Build) (done : List Val) (todo : List Expr) (env : VEnv)
  | stmt (p : Option Pat) (ss : List Stmt) (e : Expr) (env : VEnv)
  | case (as : List Arm) (env : VEnv)
  | guard (v : Val) (b : Expr) (benv : VEnv) (as : List Arm) (env : VEnv)
  | binop (isAnd : Bool) (r : Expr) (env : VEnv)
  | handle (hs : List HArm) (env : VEnv)
  | resume (l : Option Nat) (env : VEnv)
  | tail (fs : List Frame)
end

def VEnv.get : VEnv → Nat → Option Val
  | .nil, _ => none
  | .cons l v env, x => if l = x then some v else env.get x

/-- Binds parameters to as many arguments. -/
def bindAll : List Nat → List Val → VEnv → Option VEnv
  | [], [], env => some env
  | p :: ps, v :: vs, env => bindAll ps vs (.cons p v env)
  | _, _, _ => none

/-- Binds a local variable, if there is one to bind. -/
def bindOpt : Option Nat → Val → VEnv → VEnv
  | none, _, env => env
  | some l, v, env => .cons l v env

mutual
def shape : Val → Shape
  | .data t as => .data t (shapes as)
  | .fn _ => .opaque
  | .op _ _ => .opaque
  | .clo .. => .opaque
  | .kont _ => .opaque
def shapes : List Val → List Shape
  | [] => []
  | v :: vs => shape v :: shapes vs
end

mutual
def embed : Shape → Val
  | .data t as => .data t (embeds as)
  | .opaque => .data .tuple []
def embeds : List Shape → List Val
  | [] => []
  | s :: ss => embed s :: embeds ss
end

/-- The value of a field of a record. -/
def field : List Nat → List Val → Nat → Option Val
  | n :: ns, v :: vs, x => if n = x then some v else field ns vs x
  | _, _, _ => none

mutual
/-- Matches a value against a pattern, adding what the pattern binds. -/
def pmatch : Pat → Val → VEnv → Option VEnv
  | .wild _, _, env => some env
  | .bind _ l, v, env => some (.cons l v env)
  | .lit _ x, v, env => match v with
    | .data t _ => if t = .lit x then some env else none
    | _ => none
  | .variant _ r ps, v, env => match r.res, v with
    | .ctor c, .data t vs => if t = .ctor c then pmatchL ps vs env else none
    | _, _ => none
  | .record _ _ fs, v, env => match v with
    | .data (.record _ ns) vs => pmatchF fs ns vs env
    | _ => none
  | .tuple _ ps, v, env => match v with
    | .data t vs => if t = .tuple then pmatchL ps vs env else none
    | _ => none
  | .list _ ps, v, env => match v with
    | .data t vs => if t = .list then pmatchL ps vs env else none
    | _ => none
  | .listRest _ ps l, v, env => match v with
    | .data t vs => if t = .list ∧ ps.length ≤ vs.length then
        (pmatchL ps (vs.take ps.length) env).map (bindOpt l (.data .list (vs.drop ps.length)))
      else none
    | _ => none
  | .as _ p l, v, env => (pmatch p v env).map (.cons l v)
  | .err _, _, _ => none
def pmatchL : List Pat → List Val → VEnv → Option VEnv
  | [], [], env => some env
  | p :: ps, v :: vs, env => match pmatch p v env with
    | none => none
    | some env' => pmatchL ps vs env'
  | _, _, _ => none
def pmatch1 : FPat → List Nat → List Val → VEnv → Option VEnv
  | .short _ n l, ns, vs, env => (field ns vs n).map fun v => .cons l v env
  | .full _ n p, ns, vs, env => match field ns vs n with
    | none => none
    | some v => pmatch p v env
def pmatchF : List FPat → List Nat → List Val → VEnv → Option VEnv
  | [], _, _, env => some env
  | f :: fs, ns, vs, env => match pmatch1 f ns vs env with
    | none => none
    | some env' => pmatchF fs ns vs env'
end

/-- What runs next. -/
inductive Ctl
  | eval (e : Expr) (env : VEnv)
  | ret (v : Val)

structure Config where
  ctl : Ctl
  stack : List Frame
  trace : List Event

/-- One step: to another configuration, to the end, or nowhere (the program goes wrong). -/
inductive Out
  | next (c : Config)
  | done (v : Val) (trace : List Event)
  | wrong

/-- A program for the machine: parameters and body of each function. -/
abbrev Prog := Name → Option (List Nat × Expr)

/-- The arm for the end of a handled computation. -/
def doneArm : List HArm → Option (Pat × Expr)
  | [] => none
  | .mk _ (.done p) b :: _ => some (p, b)
  | _ :: hs => doneArm hs

/-- The ability a handler arm names (given with any of its operations). -/
def abilityOf (r : TRef) : Option Nat :=
  match r.res with
  | .op a _ => some a
  | _ => none

/-- The arm for an operation: parameters, body, whether it resumes by returning, and the local
variable of its continuation. -/
def opArm (a o : Nat) : List HArm → Option (List Pat × Expr × Bool × Option Nat)
  | [] => none
  | .mk _ (.fn r x ps) b :: hs =>
    if abilityOf r = some a ∧ x = o then some (ps, b, true, none) else opArm a o hs
  | .mk _ (.op r x ps l) b :: hs =>
    if abilityOf r = some a ∧ x = o then some (ps, b, false, l) else opArm a o hs
  | .mk _ (.done _) _ :: hs => opArm a o hs

/-- The innermost handler with an arm for an operation: the frames up to and including it, its arm
and environment, the frames outside. -/
def findHandler (a o : Nat) : List Frame → List Frame →
    Option (List Frame × (List Pat × Expr × Bool × Option Nat) × VEnv × List Frame)
  | _, [] => none
  | acc, f :: fs => match f with
    | .handle hs env => match opArm a o hs with
      | some arm => some ((f :: acc).reverse, arm, env, fs)
      | none => findHandler a o (f :: acc) fs
    | _ => findHandler a o (f :: acc) fs

/-- Asks the outside. -/
def ask (X : Outside) (q : Ask) (args : List Val) (k : List Frame) (tr : List Event) : Out :=
  let tr' := (q, shapes args) :: tr
  match X.answer tr' with
  | some s => .next ⟨.ret (embed s), k, tr'⟩
  | none => .wrong

/-- Performs an operation. -/
def perform (X : Outside) (a o : Nat) (args : List Val) (k : List Frame) (tr : List Event) : Out :=
  match findHandler a o [] k with
  | none => ask X (.op a o) args k tr
  | some (inner, (ps, b, returns, l), env, outer) => match pmatchL ps args env with
    | none => .wrong
    | some env' =>
      if returns then .next ⟨.eval b env', .tail inner :: outer, tr⟩
      else .next ⟨.eval b (bindOpt l (.kont inner) env'), outer, tr⟩

/-- Calls a value. -/
def apply (P : Prog) (X : Outside) (f : Val) (args : List Val) (k : List Frame) (tr : List Event) : Out :=
  match f with
  | .clo ps b env => match bindAll ps args env with
    | none => .wrong
    | some env' => .next ⟨.eval b env', k, tr⟩
  | .fn n => match P n with
    | some (ps, b) => match bindAll ps args .nil with
      | none => .wrong
      | some env' => .next ⟨.eval b env', k, tr⟩
    | none => match X.link n with
      | none => .wrong
      | some s => ask X (.ext s) args k tr
  | .op a o => perform X a o args k tr
  | .data .. => .wrong
  | .kont _ => .wrong

/-- The fields of a record that a spread provides: those not written out. -/
def spreadFields (names : List Nat) : List Nat → List Val → List (Nat × Val)
  | n :: ns, v :: vs => if n ∈ names then spreadFields names ns vs else (n, v) :: spreadFields names ns vs
  | _, _ => []

/-- Uses a finished list of values. -/
def build (P : Prog) (X : Outside) (b : Build) (vs : List Val) (k : List Frame) (tr : List Event) : Out :=
  match b with
  | .call => match vs with
    | [] => .wrong
    | f :: args => apply P X f args k tr
  | .data t => .next ⟨.ret (.data t vs), k, tr⟩
  | .record c names spread =>
    if spread then match vs with
      | .data (.record _ ns) ws :: vals =>
        .next ⟨.ret (.data (.record c (names ++ (spreadFields names ns ws).map Prod.fst))
          (vals ++ (spreadFields names ns ws).map Prod.snd)), k, tr⟩
      | _ => .wrong
    else .next ⟨.ret (.data (.record c names) vs), k, tr⟩

/-- Evaluates a list of expressions from left to right. -/
def evalArgs (P : Prog) (X : Outside) (b : Build) (done : List Val) (todo : List Expr) (env : VEnv)
    (k : List Frame) (tr : List Event) : Out :=
  match todo with
  | [] => build P X b done.reverse k tr
  | e :: es => .next ⟨.eval e env, .args b done es env :: k, tr⟩

/-- Runs the statements of a block. -/
def evalBlock (ss : List Stmt) (e : Expr) (env : VEnv) (k : List Frame) (tr : List Event) : Out :=
  match ss with
  | [] => .next ⟨.eval e env, k, tr⟩
  | .bind _ p v :: ss => .next ⟨.eval v env, .stmt (some p) ss e env :: k, tr⟩
  | .expr _ v :: ss => .next ⟨.eval v env, .stmt none ss e env :: k, tr⟩

/-- Tries the arms of a `case` in order. -/
def evalCase (v : Val) (env : VEnv) (k : List Frame) (tr : List Event) : List Arm → Out
  | [] => .wrong
  | .mk _ p g b :: as => match pmatch p v env with
    | none => evalCase v env k tr as
    | some env' => match g with
      | none => .next ⟨.eval b env', k, tr⟩
      | some c => .next ⟨.eval c env', .guard v b env' as env :: k, tr⟩

/-- Evaluates a reference. -/
def evalRef (r : Res) (env : VEnv) : Option Val :=
  match r with
  | .loc l => env.get l
  | .func f => some (.fn f)
  | .ctor c => some (.data (.ctor c) [])
  | .op a o => some (.op a o)
  | .other => none

def ctorOf (r : TRef) : Option Nat :=
  match r.res with
  | .ctor c => some c
  | _ => none

/-- Starts an expression. -/
def evalE (P : Prog) (X : Outside) (e : Expr) (env : VEnv) (k : List Frame) (tr : List Event) : Out :=
  match e with
  | .var _ r => match evalRef r.res env with
    | some v => .next ⟨.ret v, k, tr⟩
    | none => .wrong
  | .lit _ x => .next ⟨.ret (.data (.lit x) []), k, tr⟩
  | .call _ f as => .next ⟨.eval f env, .args .call [] as env :: k, tr⟩
  | .cons _ r as => match ctorOf r with
    | none => .wrong
    | some c => evalArgs P X (.data (.ctor c)) [] as env k tr
  | .record _ r ns vs sp => match ctorOf r with
    | none => .wrong
    | some c => match sp with
      | none => evalArgs P X (.record c ns false) [] vs env k tr
      | some s => .next ⟨.eval s env, .args (.record c ns true) [] vs env :: k, tr⟩
  | .method .. => .wrong
  | .block _ ss e => evalBlock ss e env k tr
  | .case _ s as => .next ⟨.eval s env, .case as env :: k, tr⟩
  | .lam _ ps b => .next ⟨.ret (.clo ps b env), k, tr⟩
  | .handle _ b hs => .next ⟨.eval b env, .handle hs env :: k, tr⟩
  | .resume _ l a => .next ⟨.eval a env, .resume l env :: k, tr⟩
  | .tuple _ as => evalArgs P X (.data .tuple) [] as env k tr
  | .list _ as => evalArgs P X (.data .list) [] as env k tr
  | .binop _ isAnd l r => .next ⟨.eval l env, .binop isAnd r env :: k, tr⟩
  | .err _ => .wrong

/-- The truth of a value. -/
def truth : Val → Option Bool
  | .data t _ => if t = .lit 1 then some true else if t = .lit 0 then some false else none
  | _ => none

/-- Hands a value to the frame that waits for it. -/
def retV (P : Prog) (X : Outside) (v : Val) (f : Frame) (k : List Frame) (tr : List Event) : Out :=
  match f with
  | .args b done todo env => evalArgs P X b (v :: done) todo env k tr
  | .stmt p ss e env => match p with
    | none => evalBlock ss e env k tr
    | some p => match pmatch p v env with
      | none => .wrong
      | some env' => evalBlock ss e env' k tr
  | .case as env => evalCase v env k tr as
  | .guard w b benv as env => match truth v with
    | none => .wrong
    | some true => .next ⟨.eval b benv, k, tr⟩
    | some false => evalCase w env k tr as
  | .binop isAnd r env => match truth v with
    | none => .wrong
    | some b => if b = isAnd then .next ⟨.eval r env, k, tr⟩ else .next ⟨.ret v, k, tr⟩
  | .handle hs env => match doneArm hs with
    | none => .next ⟨.ret v, k, tr⟩
    | some (p, b) => match pmatch p v env with
      | none => .wrong
      | some env' => .next ⟨.eval b env', k, tr⟩
  | .resume l env => match l.bind env.get with
    | some (.kont fs) => .next ⟨.ret v, fs ++ k, tr⟩
    | _ => .wrong
  | .tail fs => .next ⟨.ret v, fs ++ k, tr⟩

/-- One step. -/
def step (P : Prog) (X : Outside) (c : Config) : Out :=
  match c.ctl with
  | .eval e env => evalE P X e env c.stack c.trace
  | .ret v => match c.stack with
    | [] => .done v c.trace
    | f :: k => retV P X v f k c.trace

/-- At most `n` steps. -/
def run (P : Prog) (X : Outside) : Nat → Config → Out
  | 0, c => .next c
  | n + 1, c => match step P X c with
    | .next c' => run P X n c'
    | o => o

/-- What has been seen of a program after some steps: what it asked the outside, and its result
(`none` while it runs). -/
inductive Seen
  | running (trace : List Event)
  | finished (s : Shape) (trace : List Event)
  | wrong

def seen : Out → Seen
  | .next c => .running c.trace
  | .done v tr => .finished (shape v) tr
  | .wrong => .wrong

/-- What is seen of `n` steps of a call of a function with some data. -/
def observe (P : Prog) (X : Outside) (main : Name) (args : List Shape) (n : Nat) : Seen :=
  seen (match apply P X (.fn main) (embeds args) [] [] with
    | .next c => run P X n c
    | o => o)

/-- The program of some declarations: each function by its qualified name. -/
def progOf (ds : List Decl) : Prog := fun n => ((funsL [] ds).lookup n).map fun f => (f.ps, f.body)

end Verif.Instances
