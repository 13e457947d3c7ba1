/-!
# Case expressions

Models the exhaustiveness check of `crates/tribute-front/src/typeck/checker/expr.rs` and the code
generated for case expressions by `crates/tribute-front/src/ast_to_ir/lower/case.rs` (the lowering
that the compilation pipeline uses, `src/pipeline.rs` 359-368) and by
`ast_to_ir/lower/logical.rs` (the source-logical lowering).
-/

namespace Verif.Case

/-- Literals, `ast/pattern.rs` 127-140.  Floats are their bits. -/
inductive Lit where
  | nat (n : Nat)
  | int (i : Int)
  | float (bits : Nat)
  | str (s : List Char)
  | bool (b : Bool)
  | unit
  deriving DecidableEq, Repr

/-- Types of scrutinees: primitive types, enums with type arguments, tuples, lists and everything
else (structs, functions, byte strings, strings, …). -/
inductive T where
  | nat
  | int
  | float
  | bool
  | unit
  | other (id : Nat)
  | enum (e : Nat) (args : List T)
  | tuple (ts : List T)
  | list (t : T)

/-- Values.  A constructor is identified by its place in its enum, from 0. -/
inductive Val where
  | lit (l : Lit)
  | ctor (k : Nat) (fields : List Val)
  | tuple (vs : List Val)
  | list (vs : List Val)
  | other (id : Nat) (n : Nat)

/-- Patterns, `ast/pattern.rs` 42-108, after name resolution: variables are their local ids, a
variable without id cannot occur, and a rest pattern without a name has none.  Record patterns are
kept without their fields because neither lowering supports them. -/
inductive Pat where
  | wild
  | bind (x : Nat)
  | lit (l : Lit)
  | variant (k : Nat) (fields : List Pat)
  | record
  | tuple (ps : List Pat)
  | list (ps : List Pat)
  | listRest (head : List Pat) (rest : Option Nat)
  | as_ (p : Pat) (x : Nat)
  | error

/-- Values of the variables bound by a pattern. -/
abbrev Env := List (Nat × Val)

/-- An arm; its body is known by its place in the list of arms.  A guard is a total function of the
variables bound by the pattern (it may also depend on variables of the context, which do not
change while the case is evaluated). -/
structure Arm where
  pat : Pat
  guard : Option (Env → Bool)

/-- The enum declarations: for each enum, the types of the fields of each variant, given the type
arguments.  `none` for a name that is not an enum. -/
abbrev Decls := Nat → Option (List T → List (List T))

/-! ## The exhaustiveness check -/

/-- What `check_exhaustiveness` reports: the case is recorded as exhaustive, or an error or a
warning is reported, or nothing happens. -/
inductive Verdict where
  | exhaustive
  | error
  | warning
  | silent
  deriving DecidableEq, Repr

/-- `is_catch_all_pattern`, `checker/expr.rs` 2695-2702. -/
def catchAll : Pat → Bool
  | .wild => true
  | .bind _ => true
  | .as_ p _ => catchAll p
  | _ => false

/-- The last arm has no guard and a catch-all pattern, `checker/expr.rs` 2574-2578. -/
def lastCatchAll : List Arm → Bool
  | [] => false
  | [a] => a.guard.isNone && catchAll a.pat
  | _ :: rest => lastCatchAll rest

/-- The lengths covered by exact list patterns and by rest patterns in
`list_patterns_are_exhaustive`, `checker/expr.rs` 2704-2750: at the top or under one `as`. -/
def exactLen : Pat → Option Nat
  | .list ps => if ps.all catchAll then some ps.length else none
  | .as_ (.list ps) _ => if ps.all catchAll then some ps.length else none
  | _ => none

def prefixLen : Pat → Option Nat
  | .listRest ps _ => if ps.all catchAll then some ps.length else none
  | .as_ (.listRest ps _) _ => if ps.all catchAll then some ps.length else none
  | _ => none

/-- The patterns of the arms without guard. -/
def unguarded (arms : List Arm) : List Pat := (arms.filter (·.guard.isNone)).map (·.pat)

/-- `list_patterns_are_exhaustive`, `checker/expr.rs` 2704-2750. -/
def listCovers (arms : List Arm) : Bool :=
  ((unguarded arms).filterMap prefixLen).any (fun m =>
    (List.range m).all (fun n => ((unguarded arms).filterMap exactLen).contains n))

/-- `collect_covered_variants`, `checker/expr.rs` 2753-2770.  The program collects variant names;
patterns of one well-typed case are of one enum, where names and places correspond. -/
def coveredVariant : Pat → Option Nat
  | .variant k _ => some k
  | .as_ p _ => coveredVariant p
  | _ => none

/-- `collect_bool_coverage`, `checker/expr.rs` 2773-2788. -/
def boolLit : Pat → Option Bool
  | .lit (.bool b) => some b
  | .as_ p _ => boolLit p
  | _ => none

/-- `check_exhaustiveness`, `checker/expr.rs` 2555-2692.  The type is what is known of the scrutinee
when the case is checked, `none` for a variable that is not solved yet.  Enums are looked up by
name in the program. -/
def verdict (D : Decls) (ty : Option T) (arms : List Arm) : Verdict :=
  if arms.isEmpty then .error
  else if lastCatchAll arms then .exhaustive
  else match ty with
    | none => .silent
    | some (.list _) => if listCovers arms then .exhaustive else .error
    | some (.enum e as) => match D e with
      | none => .warning
      | some d =>
        if (List.range (d as).length).all (fun k => ((unguarded arms).filterMap coveredVariant).contains k)
        then .exhaustive else .error
    | some .bool =>
      if ((unguarded arms).filterMap boolLit).contains true && ((unguarded arms).filterMap boolLit).contains false
      then .exhaustive else .error
    | some .int => .error
    | some .float => .error
    | some .nat => .error
    | some _ => .warning

/-! ## The generated code -/

/-- The literals `emit_literal_check` supports, `case.rs` 1083-1154; the others panic in the
compiler. -/
def litLowers : Lit → Bool
  | .nat _ => true
  | .int _ => true
  | .bool _ => true
  | _ => false

mutual
/-- The patterns for which code is generated without a panic in the compiler: `emit_pattern_check`
443-556 and `bind_pattern_fields` 1374-1494 of `case.rs`.  The fields of a variant are not checked
by the pipeline's lowering (`deep = false`); binding them accepts every pattern but records. -/
def lowers (deep : Bool) : Pat → Bool
  | .wild => true
  | .bind _ => true
  | .lit l => litLowers l
  | .variant _ ps => if deep then lowersL deep ps else true
  | .record => false
  | .tuple ps => lowersL deep ps
  | .list ps => lowersL deep ps
  | .listRest ps _ => lowersL deep ps
  | .as_ p _ => lowers deep p
  | .error => true
def lowersL (deep : Bool) : List Pat → Bool
  | [] => true
  | p :: ps => lowers deep p && lowersL deep ps
end

/-- `emit_literal_check`, `case.rs` 1083-1154: an integer comparison of the scrutinee with the
constant.  `none`: not a value of the type of the literal, or a panic in the compiler. -/
def litCheck : Lit → Val → Option Bool
  | .nat n, .lit (.nat m) => some (m == n)
  | .int n, .lit (.int m) => some (m == n)
  | .bool b, .lit (.bool c) => some (c == b)
  | _, _ => none

mutual
/-- The value computed by the code of `emit_pattern_check` (`case.rs` 443-556, `deep = false`) and
of `emit_logical_pattern_check` with `emit_logical_variant_pattern_check` (`case.rs` 565-740,
`deep = true`): the latter also tests the fields of a variant, inside the branch where the tag
matches.  `none` stands for reading a value that is not there. -/
def check (deep : Bool) : Pat → Val → Option Bool
  | .wild, _ => some true
  | .bind _, _ => some true
  | .error, _ => some true
  | .record, _ => none
  | .lit l, v => litCheck l v
  | .as_ p _, v => check deep p v
  | .variant k ps, v => match v with
    | .ctor j fs =>
      if j = k then (if deep && !ps.isEmpty then checkAll deep ps fs else some true) else some false
    | _ => none
  | .tuple ps, v => match v with
    | .tuple vs => checkAll deep ps vs
    | _ => none
  | .list ps, v => match v with
    | .list vs => checkSuffix deep ps true vs
    | _ => none
  | .listRest ps _, v => match v with
    | .list vs => checkSuffix deep ps false vs
    | _ => none
/-- All elements are read and tested and the results combined with `arith.and`, `case.rs` 486-525
and 587-628. -/
def checkAll (deep : Bool) : List Pat → List Val → Option Bool
  | [], _ => some true
  | _ :: _, [] => none
  | p :: ps, v :: vs => match check deep p v, checkAll deep ps vs with
    | some a, some b => some (a && b)
    | _, _ => none
/-- `emit_list_pattern_suffix`, `case.rs` 935-1080, and its logical twin 778-906: an element is
read only if the list is not empty, the rest only if the element matched. -/
def checkSuffix (deep : Bool) : List Pat → Bool → List Val → Option Bool
  | [], exact, vs => some (if exact then vs.isEmpty else true)
  | _ :: _, _, [] => some false
  | p :: ps, exact, v :: vs => match check deep p v with
    | none => none
    | some false => some false
    | some true => checkSuffix deep ps exact vs
end

mutual
/-- `bind_pattern_fields`, `case.rs` 1374-1494, and `bind_logical_pattern_fields`, 1499-1585, with
`bind_list_pattern_fields`.  `none` for a cast to the wrong variant, a missing field or element, or
a panic in the compiler. -/
def bindP : Pat → Val → Option Env
  | .bind x, v => some [(x, v)]
  | .wild, _ => some []
  | .lit _, _ => some []
  | .error, _ => some []
  | .record, _ => none
  | .as_ p x, v => (bindP p v).map ((x, v) :: ·)
  | .variant k ps, v => match v with
    | .ctor j fs => if j = k then bindAll ps fs else none
    | _ => none
  | .tuple ps, v => match v with
    | .tuple vs => bindAll ps vs
    | _ => none
  | .list ps, v => match v with
    | .list vs => bindSuffix ps none vs
    | _ => none
  | .listRest ps r, v => match v with
    | .list vs => bindSuffix ps r vs
    | _ => none
/-- The loop over fields and elements. -/
def bindAll : List Pat → List Val → Option Env
  | [], _ => some []
  | _ :: _, [] => none
  | p :: ps, v :: vs => match bindP p v, bindAll ps vs with
    | some a, some b => some (a ++ b)
    | _, _ => none
/-- `bind_list_pattern_fields`, `case.rs` 1619-1659. -/
def bindSuffix : List Pat → Option Nat → List Val → Option Env
  | [], none, _ => some []
  | [], some x, vs => some [(x, .list vs)]
  | _ :: _, _, [] => none
  | p :: ps, r, v :: vs => match bindP p v, bindSuffix ps r vs with
    | some a, some b => some (a ++ b)
    | _, _ => none
end

/-- What evaluating a case does: runs the body of arm `i` with `env`, reaches the code for "no
arm", or does something undefined. -/
inductive Outcome where
  | arm (i : Nat) (env : Env)
  | noArm
  | undefined

/-- `is_irrefutable_pattern`, `lower/mod.rs` 394-399. -/
def irrefutable : Pat → Bool
  | .wild => true
  | .bind _ => true
  | _ => false

/-- Binding the pattern of arm `i` and running its body. -/
def enter (i : Nat) (p : Pat) (v : Val) : Outcome :=
  match bindP p v with
  | none => .undefined
  | some env => .arm i env

/-- `build_arm_region` and `build_guarded_arm_region`, `case.rs` 1157-1300: bind, evaluate the
guard, run the body or the remaining arms (`next`). -/
def armRegion (i : Nat) (a : Arm) (v : Val) (next : Outcome) : Outcome :=
  match bindP a.pat v with
  | none => .undefined
  | some env => match a.guard with
    | none => .arm i env
    | some g => if g env then .arm i env else next

/-- `lower_case_chain`, `case.rs` 363-440 (and `lower_case_comp_chain`, 76-150): the last arm is
not tested when it has no guard and is reached from a previous arm. -/
def chain (isElse : Bool) (i : Nat) (v : Val) : List Arm → Outcome
  | [] => .noArm
  | a :: rest =>
    if rest.isEmpty && a.guard.isNone && (isElse || irrefutable a.pat) then enter i a.pat v
    else match check false a.pat v with
      | none => .undefined
      | some true => armRegion i a v (chain true (i + 1) v rest)
      | some false => chain true (i + 1) v rest

/-- `lower_case_chain`, `logical.rs` 1365-1440: the last arm is not tested when it has no guard and
the case was recorded as exhaustive. -/
def chainL (exhaustive : Bool) (i : Nat) (v : Val) : List Arm → Outcome
  | [] => .noArm
  | a :: rest =>
    if rest.isEmpty && exhaustive && a.guard.isNone then enter i a.pat v
    else match check true a.pat v with
      | none => .undefined
      | some true => armRegion i a v (chainL exhaustive (i + 1) v rest)
      | some false => chainL exhaustive (i + 1) v rest

/-- A case expression as the pipeline compiles it. -/
def run (arms : List Arm) (v : Val) : Outcome := chain false 0 v arms

/-- A case expression in the source-logical lowering; `ty` is what the checker knew of the
scrutinee. -/
def runL (D : Decls) (ty : Option T) (arms : List Arm) (v : Val) : Outcome :=
  chainL (verdict D ty arms == .exhaustive) 0 v arms

end Verif.Case
