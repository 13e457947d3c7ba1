import Verif.Canon.Model
import Verif.Arith.Spec

/-!
# What function bodies do

Values are integers of some width or anything else; running a body ends in one of the ways below, or not
at all.  This file does not mention canonicalisation.
-/
namespace Verif.Canon

open Verif.Arith (I128 BinOp)

/-- A value at run time; `O` is everything that is not an integer. -/
inductive Val (O : Type)
  | int (w : Nat) (b : BitVec w)
  | other (o : O)

/-- Of a type: integer types hold integers of that width. -/
def HasTy {O : Type} : Ty → Val O → Prop
  | .int w, v => ∃ b, v = .int w b
  | .other _, _ => True

/-- What the other operations do: `plain f tys args s` gives results of the types `tys`, or aborts;
`cast t t' v` is the value `v` of type `t` as one of type `t'`, if it can be one. -/
structure Machine (O S : Type) where
  plain : Nat → List Ty → List (Val O) → S → Option (List (Val O) × S)
  cast : Ty → Ty → Val O → Option (Val O)

/-- Values of given types. -/
def HasTys {O : Type} : List Ty → List (Val O) → Prop
  | [], [] => True
  | t :: ts, v :: vs => HasTy t v ∧ HasTys ts vs
  | _, _ => False

/-- Operations give results of their types, and a cast is a change of representation: there and back is
nothing. -/
structure Machine.Lawful {O S : Type} (M : Machine O S) : Prop where
  plain_typed : ∀ f tys args s vs s', M.plain f tys args s = some (vs, s') → HasTys tys vs
  cast_typed : ∀ t t' v v', HasTy t v → M.cast t t' v = some v' → HasTy t' v'
  cast_same : ∀ t v, HasTy t v → M.cast t t v = some v
  cast_back : ∀ t t' v v', HasTy t v → M.cast t t' v = some v' → M.cast t' t v' = some v

/-- The values at a point. -/
abbrev Env (O : Type) := Value → Val O

/-- Give values to results. -/
def bindAll {O : Type} (ρ : Env O) : List Value → List (Val O) → Env O
  | r :: rs, v :: vs => fun x => if x = r then v else bindAll ρ rs vs x
  | _, _ => ρ

/-- How operations end: they go on, they end a body in one of the ways a body can end, they abort, or they
are not allowed there. -/
inductive Out (O S : Type)
  | next (ρ : Env O) (s : S)
  | yield (vs : List (Val O)) (s : S)
  | cont (vs : List (Val O)) (s : S)
  | brk (vs : List (Val O)) (s : S)
  | exit (f : Nat) (vs : List (Val O)) (s : S)
  | trap (s : S)
  | stuck

/-- An integer operation; `none` is an abort. -/
def binVal {O : Type} (o : BinOp) : Val O → Val O → Option (Val O)
  | .int w x, .int w' y =>
    if h : w' = w then (Arith.exec o x (h ▸ y)).map (.int w) else none
  | _, _ => none

/-- The condition of `scf.if`. -/
def truth {O : Type} : Val O → Bool
  | .int _ b => b ≠ 0
  | .other _ => false

/-- Repeat a body as long as it says "continue", at most `n` times (`none` is "not done yet"). -/
def iterate {O S : Type} (f : List (Val O) → S → Option (Out O S)) : Nat → List (Val O) → S → Option (Out O S)
  | 0, _, _ => none
  | n + 1, vs, s =>
    match f vs s with
    | some (.cont vs' s') => iterate f n vs' s'
    | r => r

/-- After a body: its `yield` gives the results of the operation around it. -/
def afterIf {O S : Type} (ρ : Env O) (rs : List Value) : Option (Out O S) → Option (Out O S)
  | some (.yield vs s) => some (.next (bindAll ρ rs vs) s)
  | some (.next _ _) => some .stuck
  | r => r

/-- After a loop: `break` gives its results. -/
def afterLoop {O S : Type} (ρ : Env O) (rs : List Value) : Option (Out O S) → Option (Out O S)
  | some (.brk vs s) => some (.next (bindAll ρ rs vs) s)
  | some (.next _ _) => some .stuck
  | some (.yield _ _) => some .stuck
  | some (.cont _ _) => some .stuck
  | r => r

/-- Go on with the rest. -/
def andThen {O S : Type} (r : Option (Out O S)) (k : Env O → S → Option (Out O S)) : Option (Out O S) :=
  match r with
  | some (.next ρ s) => k ρ s
  | r => r

mutual
/-- Run an operation, every loop at most `n` times. -/
def execOp {O S : Type} (M : Machine O S) (ty : Value → Ty) (n : Nat) (ρ : Env O) (s : S) :
    Op → Option (Out O S)
  | .const r v =>
    match ty r with
    | .int w => some (.next (bindAll ρ [r] [.int w (Arith.machine w v)]) s)
    | .other _ => some .stuck
  | .constBool r b =>
    match ty r with
    | .int w => some (.next (bindAll ρ [r] [.int w (if b then 1 else 0)]) s)
    | .other _ => some .stuck
  | .bin o r a b =>
    match binVal o (ρ a) (ρ b) with
    | some v => some (.next (bindAll ρ [r] [v]) s)
    | none => some (.trap s)
  | .cast r a =>
    match M.cast (ty a) (ty r) (ρ a) with
    | some v => some (.next (bindAll ρ [r] [v]) s)
    | none => some .stuck
  | .plain f args rs =>
    match M.plain f (rs.map ty) (args.map ρ) s with
    | some (vs, s') => some (.next (bindAll ρ rs vs) s')
    | none => some (.trap s)
  | .ite c rs t e =>
    afterIf ρ rs (if truth (ρ c) then execOps M ty n ρ s t else execOps M ty n ρ s e)
  | .loop inits args rs body =>
    afterLoop ρ rs (iterate (fun vs s => execOps M ty n (bindAll ρ args vs) s body) n (inits.map ρ) s)
  | .yield vs => some (.yield (vs.map ρ) s)
  | .cont vs => some (.cont (vs.map ρ) s)
  | .brk vs => some (.brk (vs.map ρ) s)
  | .exit f vs => some (.exit f (vs.map ρ) s)

/-- Run operations in order. -/
def execOps {O S : Type} (M : Machine O S) (ty : Value → Ty) (n : Nat) (ρ : Env O) (s : S) :
    List Op → Option (Out O S)
  | [] => some (.next ρ s)
  | o :: os => andThen (execOp M ty n ρ s o) fun ρ' s' => execOps M ty n ρ' s' os
end

/-- How a function can end. -/
inductive End (O S : Type)
  | exit (f : Nat) (vs : List (Val O)) (s : S)
  | trap (s : S)

/-- The end of a function, if a run gets there. -/
def Out.ending {O S : Type} : Out O S → Option (End O S)
  | .exit f vs s => some (.exit f vs s)
  | .trap s => some (.trap s)
  | _ => none

/-- The body, run with these arguments in this state, ends like this. -/
def Ends {O S : Type} (M : Machine O S) (ty : Value → Ty) (body : List Op) (ρ : Env O) (s : S)
    (e : End O S) : Prop :=
  ∃ n o, execOps M ty n ρ s body = some o ∧ o.ending = some e

/-! ## Well formed bodies -/

/-- The types a body may end with. -/
structure Ctx where
  yield : Option (List Ty)
  cont : Option (List Ty)
  brk : Option (List Ty)

/-- An operation that ends a body. -/
def Op.isTerm : Op → Bool
  | .yield _ | .cont _ | .brk _ | .exit _ _ => true
  | _ => false

/-- The results of an operation. -/
def Op.results : Op → List Value
  | .const r _ | .constBool r _ | .bin _ r _ _ | .cast r _ => [r]
  | .plain _ _ rs | .ite _ rs _ _ | .loop _ _ rs _ => rs
  | _ => []

mutual
/-- Operands are defined before (`D`), and types fit.  Constants are written as signed numbers of their
type (truth values may also be 1), and truth values are not divided. -/
def WfOp (ty : Value → Ty) (K : Ctx) (D : Value → Prop) : Op → Prop
  | .const r v => ∃ w, ty r = .int w ∧ 1 ≤ w ∧ w ≤ 128 ∧ (Arith.Normal w v ∨ w = 1)
  | .constBool r _ => ty r = .int 1
  | .bin o r a b => D a ∧ D b ∧ ∃ w, ty r = .int w ∧ ty a = .int w ∧ ty b = .int w ∧ 1 ≤ w ∧ w ≤ 128 ∧
      (o = .divsi ∨ o = .remsi → w ≠ 1)
  | .cast _ a => D a
  | .plain _ args _ => ∀ x ∈ args, D x
  | .ite c rs t e => D c ∧ WfOps ty ⟨some (rs.map ty), K.cont, K.brk⟩ D t ∧
      WfOps ty ⟨some (rs.map ty), K.cont, K.brk⟩ D e
  | .loop inits args rs body => (∀ x ∈ inits, D x) ∧ inits.map ty = args.map ty ∧
      WfOps ty ⟨none, some (args.map ty), some (rs.map ty)⟩ (fun x => D x ∨ x ∈ args) body
  | .yield vs => (∀ x ∈ vs, D x) ∧ K.yield = some (vs.map ty)
  | .cont vs => (∀ x ∈ vs, D x) ∧ K.cont = some (vs.map ty)
  | .brk vs => (∀ x ∈ vs, D x) ∧ K.brk = some (vs.map ty)
  | .exit _ vs => ∀ x ∈ vs, D x

/-- The same of operations in order; the ones that end a body are last. -/
def WfOps (ty : Value → Ty) (K : Ctx) (D : Value → Prop) : List Op → Prop
  | [] => True
  | o :: os => WfOp ty K D o ∧ (os ≠ [] → o.isTerm = false) ∧ WfOps ty K (fun x => D x ∨ x ∈ o.results) os
end

mutual
/-- Every value defined in an operation, nested bodies included. -/
def bindersOp : Op → List Value
  | .const r _ => [r]
  | .constBool r _ => [r]
  | .bin _ r _ _ => [r]
  | .cast r _ => [r]
  | .plain _ _ rs => rs
  | .ite _ rs t e => rs ++ (bindersOps t ++ bindersOps e)
  | .loop _ args rs body => rs ++ (args ++ bindersOps body)
  | _ => []

/-- The same of operations. -/
def bindersOps : List Op → List Value
  | [] => []
  | o :: os => bindersOp o ++ bindersOps os
end

/-- A function body with the given parameters: well formed, every value defined once. -/
structure WfBody (ty : Value → Ty) (params : List Value) (body : List Op) : Prop where
  wf : WfOps ty ⟨none, none, none⟩ (· ∈ params) body
  once : (bindersOps body).Nodup
  fresh : ∀ x ∈ bindersOps body, x ∉ params

/-- The arguments have the types of the parameters. -/
def ArgsTyped {O : Type} (ty : Value → Ty) (params : List Value) (ρ : Env O) : Prop :=
  ∀ x ∈ params, HasTy (ty x) (ρ x)

/-! ## What could still be folded -/

/-- What a value is known to be: the integer constant `v`, or the cast of a value. -/
inductive Fact
  | const (v : I128)
  | castOf (a : Value)

/-- What is known after an operation. -/
def learn (k : Value → Option Fact) : Op → (Value → Option Fact)
  | .const r v => fun x => if x = r then some (.const v) else k x
  | .cast r a => fun x => if x = r then some (.castOf a) else k x
  | o => fun x => if x ∈ o.results then none else k x

/-- The body ends in a `yield` of as many values as there are results. -/
def YieldsFor (rs : List Value) (os : List Op) : Prop :=
  ∃ body vs, os = body ++ [.yield vs] ∧ vs.length = rs.length

mutual
/-- There is an operation that could be folded: an integer operation on two constants that does not
abort, a cast that changes nothing or goes back, a conditional on the constant 0 or 1. -/
def FoldableOp (ty : Value → Ty) (k : Value → Option Fact) : Op → Prop
  | .bin o r a b => ∃ w x y, ty r = .int w ∧ 1 ≤ w ∧ w ≤ 128 ∧ k a = some (.const x) ∧ k b = some (.const y) ∧
      Arith.Normal w x ∧ Arith.Normal w y ∧ Arith.exec o (Arith.machine w x) (Arith.machine w y) ≠ none
  | .cast r a => ty a = ty r ∨ ∃ i, k a = some (.castOf i) ∧ ty i = ty r
  | .ite c rs t e =>
      (ty c = .int 1 ∧ (k c = some (.const 1) ∧ YieldsFor rs t ∨ k c = some (.const 0) ∧ YieldsFor rs e)) ∨
      FoldableOps ty k t ∨ FoldableOps ty k e
  | .loop _ args _ body => FoldableOps ty (fun x => if x ∈ args then none else k x) body
  | _ => False

/-- The same of operations in order. -/
def FoldableOps (ty : Value → Ty) (k : Value → Option Fact) : List Op → Prop
  | [] => False
  | o :: os => FoldableOp ty k o ∨ FoldableOps ty (learn k o) os
end

end Verif.Canon
