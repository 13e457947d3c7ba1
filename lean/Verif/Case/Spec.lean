import Verif.Case.Model

/-!
# What case expressions should do
-/

namespace Verif.Case

/-- The type of a literal. -/
def Lit.ty : Lit → Option T
  | .nat _ => some .nat
  | .int _ => some .int
  | .float _ => some .float
  | .bool _ => some .bool
  | .unit => some .unit
  | .str _ => none

mutual
/-- `v` is a value of type `t`. -/
def HasTy (D : Decls) : Val → T → Prop
  | .lit l, t => l.ty = some t
  | .ctor k fs, t => match t with
    | .enum e as => ∃ d tys, D e = some d ∧ (d as)[k]? = some tys ∧ HasTyL D fs tys
    | _ => False
  | .tuple vs, t => match t with
    | .tuple ts => HasTyL D vs ts
    | _ => False
  | .list vs, t => match t with
    | .list t' => HasTyA D vs t'
    | _ => False
  | .other i _, t => t = .other i
/-- Values and types, one by one. -/
def HasTyL (D : Decls) : List Val → List T → Prop
  | [], ts => ts = []
  | v :: vs, ts => match ts with
    | [] => False
    | t :: ts => HasTy D v t ∧ HasTyL D vs ts
/-- Values of one type. -/
def HasTyA (D : Decls) : List Val → T → Prop
  | [], _ => True
  | v :: vs, t => HasTy D v t ∧ HasTyA D vs t
end

mutual
/-- `p` is a pattern for values of type `t`. -/
def PatTy (D : Decls) : Pat → T → Prop
  | .wild, _ => True
  | .bind _, _ => True
  | .error, _ => True
  | .record, _ => True
  | .lit l, t => l.ty = some t
  | .as_ p _, t => PatTy D p t
  | .variant k ps, t => match t with
    | .enum e as => ∃ d tys, D e = some d ∧ (d as)[k]? = some tys ∧ PatTyPre D ps tys
    | _ => False
  | .tuple ps, t => match t with
    | .tuple ts => PatTyL D ps ts
    | _ => False
  | .list ps, t => match t with
    | .list t' => PatTyA D ps t'
    | _ => False
  | .listRest ps _, t => match t with
    | .list t' => PatTyA D ps t'
    | _ => False
/-- Patterns and types, one by one. -/
def PatTyL (D : Decls) : List Pat → List T → Prop
  | [], ts => ts = []
  | p :: ps, ts => match ts with
    | [] => False
    | t :: ts => PatTy D p t ∧ PatTyL D ps ts
/-- Patterns for the first of some types: a variant pattern may leave out the last fields. -/
def PatTyPre (D : Decls) : List Pat → List T → Prop
  | [], _ => True
  | p :: ps, ts => match ts with
    | [] => False
    | t :: ts => PatTy D p t ∧ PatTyPre D ps ts
/-- Patterns of one type. -/
def PatTyA (D : Decls) : List Pat → T → Prop
  | [], _ => True
  | p :: ps, t => PatTy D p t ∧ PatTyA D ps t
end

mutual
/-- The value matches the pattern. -/
def Matches : Pat → Val → Prop
  | .wild, _ => True
  | .bind _, _ => True
  | .error, _ => True
  | .record, _ => False
  | .lit l, v => v = .lit l
  | .as_ p _, v => Matches p v
  | .variant k ps, v => ∃ fs, v = .ctor k fs ∧ MatchesPre ps fs
  | .tuple ps, v => ∃ vs, v = .tuple vs ∧ vs.length = ps.length ∧ MatchesPre ps vs
  | .list ps, v => ∃ vs, v = .list vs ∧ vs.length = ps.length ∧ MatchesPre ps vs
  | .listRest ps _, v => ∃ vs, v = .list vs ∧ MatchesPre ps vs
/-- There is a value for each pattern, and it matches. -/
def MatchesPre : List Pat → List Val → Prop
  | [], _ => True
  | p :: ps, vs => ∃ v vs', vs = v :: vs' ∧ Matches p v ∧ MatchesPre ps vs'
end

mutual
/-- What the variables of the pattern stand for when it matches: the part of the value at the place
of the variable. -/
def bound : Pat → Val → Env
  | .bind x, v => [(x, v)]
  | .as_ p x, v => (x, v) :: bound p v
  | .variant _ ps, .ctor _ fs => boundL ps fs
  | .tuple ps, .tuple vs => boundL ps vs
  | .list ps, .list vs => boundL ps vs
  | .listRest ps none, .list vs => boundL ps vs
  | .listRest ps (some x), .list vs => boundL ps vs ++ [(x, .list (vs.drop ps.length))]
  | _, _ => []
def boundL : List Pat → List Val → Env
  | p :: ps, v :: vs => bound p v ++ boundL ps vs
  | _, _ => []
end

/-- The arm accepts the value: the pattern matches and the guard, if any, holds. -/
def Arm.Accepts (a : Arm) (v : Val) : Prop :=
  Matches a.pat v ∧ ∀ g, a.guard = some g → g (bound a.pat v) = true

/-- Arm `i` is the first that accepts the value. -/
def First (arms : List Arm) (v : Val) (i : Nat) (env : Env) : Prop :=
  ∃ a, arms[i]? = some a ∧ a.Accepts v ∧ env = bound a.pat v ∧
    ∀ j < i, ∀ b, arms[j]? = some b → ¬ b.Accepts v

/-- Some arm without a guard matches the value. -/
def Covered (arms : List Arm) (v : Val) : Prop :=
  ∃ a ∈ arms, a.guard = none ∧ Matches a.pat v

/-- The pattern is a wildcard or a variable, possibly with `as`. -/
def Always : Pat → Prop
  | .wild => True
  | .bind _ => True
  | .as_ p _ => Always p
  | _ => False

mutual
/-- The fields of variant patterns are only variables and wildcards. -/
def Flat : Pat → Prop
  | .variant _ ps => ∀ p ∈ ps, Always p
  | .tuple ps => FlatL ps
  | .list ps => FlatL ps
  | .listRest ps _ => FlatL ps
  | .as_ p _ => Flat p
  | _ => True
def FlatL : List Pat → Prop
  | [] => True
  | p :: ps => Flat p ∧ FlatL ps
end

end Verif.Case
