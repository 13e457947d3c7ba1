import Verif.Report.Model

/-
What a program means, which programs have something wrong in them, and where in the source a span
is.
-/

namespace Verif.Report.Spec

open Verif.Report

/-- Values of programs. -/
inductive Val where
  | int (n : Int)
  | unit
  | record (fields : List Val)

/-- What a program does: the calls it makes, in order. -/
abbrev Trace := List (String × List Val)

/-- The functions a program calls: what a call returns, given all calls so far, itself included. -/
abbrev World := Trace → Val

/-- Values by field name, in declared order. -/
def arrange (vs : List (String × Val)) : List String → Option (List Val)
  | [] => some []
  | f :: fs => do
    let v ← vs.lookup f
    let rest ← arrange vs fs
    pure (v :: rest)

mutual
/-- What an expression means. Literals mean the number written. A record expression that does not
name each field once has no meaning. -/
def eval (w : World) (env : List (Nat × Val)) : Expr → Trace → Option (Val × Trace)
  | .nat _ n, t => some (.int n, t)
  | .int _ n, t => some (.int n, t)
  | .nil, t => some (.unit, t)
  | .var x, t => (env.lookup x).map fun v => (v, t)
  | .call f args, t => do
    let (vs, t) ← evalArgs w env args t
    pure (w (t ++ [(f, vs)]), t ++ [(f, vs)])
  | .block ss e, t => do
    let (env, t) ← evalStmts w env ss t
    eval w env e t
  | .record _ order fields, t => do
    let (vs, t) ← evalFields w env order [] fields t
    let vs ← arrange vs order
    pure (.record vs, t)
def evalArgs (w : World) (env : List (Nat × Val)) : List Expr → Trace → Option (List Val × Trace)
  | [], t => some ([], t)
  | e :: es, t => do
    let (v, t) ← eval w env e t
    let (vs, t) ← evalArgs w env es t
    pure (v :: vs, t)
def evalFields (w : World) (env : List (Nat × Val)) (order : List String) (m : List (String × Val)) :
    List Field → Trace → Option (List (String × Val) × Trace)
  | [], t => some (m, t)
  | .mk name e :: fs, t =>
    if name ∈ order ∧ m.lookup name = none then do
      let (v, t) ← eval w env e t
      evalFields w env order (m ++ [(name, v)]) fs t
    else none
def evalStmts (w : World) (env : List (Nat × Val)) :
    List Stmt → Trace → Option (List (Nat × Val) × Trace)
  | [], t => some (env, t)
  | .bind x e :: ss, t => do
    let (v, t) ← eval w env e t
    evalStmts w ((x, v) :: env) ss t
  | .expr e :: ss, t => do
    let (_, t) ← eval w env e t
    evalStmts w env ss t
end

/-- What compiled operations do. -/
def exec (w : World) : List Op → (Nat → Option Val) → Trace → Option (Val × Trace)
  | [], _, _ => none
  | .const d n :: k, r, t => exec w k (fun x => if x = d then some (.int n) else r x) t
  | .unit d :: k, r, t => exec w k (fun x => if x = d then some .unit else r x) t
  | .call d f args :: k, r, t =>
    match args.mapM r with
    | none => none
    | some vs =>
      exec w k (fun x => if x = d then some (w (t ++ [(f, vs)])) else r x) (t ++ [(f, vs)])
  | .structNew d args :: k, r, t =>
    match args.mapM r with
    | none => none
    | some vs => exec w k (fun x => if x = d then some (.record vs) else r x) t
  | .ret v :: _, r, t => (r v).map fun v => (v, t)

/-- What a compiled program does. -/
def run (w : World) (p : List Op) : Option (Val × Trace) := exec w p (fun _ => none) []

/-- The names of the fields of a record expression, as written. -/
def fieldNames : List Field → List String
  | [] => []
  | .mk f _ :: fs => f :: fieldNames fs

/-- The variables in scope after some statements. -/
def scopeAfter (xs : List Nat) : List Stmt → List Nat
  | [] => xs
  | .bind x _ :: ss => scopeAfter (x :: xs) ss
  | .expr _ :: ss => scopeAfter xs ss

mutual
/-- Nothing is wrong with the expression: every literal is a number the language has, every
variable is bound, every record names exactly the declared fields, each once. -/
def Sound (xs : List Nat) : Expr → Prop
  | .nat _ n => (n : Int) < 2 ^ 30
  | .int _ n => -(2 ^ 30) ≤ n ∧ n < 2 ^ 30
  | .nil => True
  | .var x => x ∈ xs
  | .call _ args => SoundArgs xs args
  | .block ss e => SoundStmts xs ss ∧ Sound (scopeAfter xs ss) e
  | .record _ order fields =>
    SoundFields xs fields ∧ (fieldNames fields).Nodup ∧ ∀ f, f ∈ order ↔ f ∈ fieldNames fields
def SoundArgs (xs : List Nat) : List Expr → Prop
  | [] => True
  | e :: es => Sound xs e ∧ SoundArgs xs es
def SoundFields (xs : List Nat) : List Field → Prop
  | [] => True
  | .mk _ e :: fs => Sound xs e ∧ SoundFields xs fs
def SoundStmts (xs : List Nat) : List Stmt → Prop
  | [] => True
  | .bind x v :: ss => Sound xs v ∧ SoundStmts (x :: xs) ss
  | .expr v :: ss => Sound xs v ∧ SoundStmts xs ss
end

/-- The errors that the compiler finds in a program that goes to a backend. -/
def Found (front : Front) (d : Diag) : Prop :=
  d.severity = .error ∧ (d ∈ front.diags ∨ d ∈ (lowerMain front.main).diags)

/-- The phases in the order they happen. -/
def phases : List Phase :=
  [.parsing, .astGeneration, .tirGeneration, .nameResolution, .typeChecking, .lowering, .optimization]

/-- The order of two diagnostics that a reader is promised: by phase, then place, then text. -/
def Before (a b : Diag) : Prop :=
  phases.idxOf a.phase < phases.idxOf b.phase ∨ a.phase = b.phase ∧
  (a.span.start < b.span.start ∨ a.span.start = b.span.start ∧
  (a.span.stop < b.span.stop ∨ a.span.stop = b.span.stop ∧ a.message ≤ b.message))

/-- What a reader sees of a diagnostic: its phase, place and text. -/
def key (d : Diag) : Phase × Nat × Nat × String := (d.phase, d.span.start, d.span.stop, d.message)

/-- Bytes of a text in UTF-8. -/
def bytes (s : List Char) : Nat := (s.map Char.utf8Size).sum

/-- `s` is the text at a span of the source, after `pre`. -/
def At (text pre s : List Char) (sp : Span) : Prop :=
  ∃ post, text = pre ++ s ++ post ∧ bytes pre = sp.start ∧ bytes pre + bytes s = sp.stop

/-- One byte per character. -/
def Ascii (s : List Char) : Prop := ∀ c ∈ s, c.utf8Size = 1

end Verif.Report.Spec
