/-!
# Dialect conversion

Model of `crates/trunk-ir/src/rewrite/conversion_target.rs` (legality rules and verification),
`rewrite/applicator.rs` (the driver of rewrite patterns), `rewrite/rewriter.rs` (what a pattern may do)
and `walk.rs`.

Simplifications: an operation is a tree, the blocks of its regions in order; operands, results, types
and attributes are one number `data`; a pattern is a function of the operation and changes the program
only through its rewriter; automatic type conversion is off (`with_auto_type_conversion(false)`, the
default).
-/
namespace Verif.Convert

/-- An operation with its nested operations. -/
inductive Op where
  | mk (dialect name : String) (data : Nat) (body : List Op)

def Op.dialect : Op → String
  | .mk d _ _ _ => d

def Op.name : Op → String
  | .mk _ n _ _ => n

def Op.data : Op → Nat
  | .mk _ _ x _ => x

def Op.body : Op → List Op
  | .mk _ _ _ b => b

/-- `(data.dialect, data.name)`, conversion_target.rs 356-357. -/
def Op.key (op : Op) : String × String := (op.dialect, op.name)

/-- The same operation with other nested operations. -/
def Op.withBody (op : Op) (b : List Op) : Op := .mk op.dialect op.name op.data b

/-- `LegalityCheck`, conversion_target.rs 15-24. -/
inductive Check where
  | legal
  | illegal
  | unknown
deriving DecidableEq, Repr

/-- `LegalityDecision`, conversion_target.rs 27-35. -/
inductive Decision where
  | legal
  | illegal
  | defer
deriving DecidableEq, Repr

/-- `into_check`, conversion_target.rs 38-44. -/
def Decision.intoCheck : Decision → Option Check
  | .legal => some .legal
  | .illegal => some .illegal
  | .defer => none

/-- `ConversionTarget`, conversion_target.rs 68-86. -/
structure Target where
  legalDialects : List String := []
  illegalDialects : List String := []
  legalOps : List (String × String) := []
  illegalOps : List (String × String) := []
  recursiveLegalOps : List (String × String) := []
  recursiveDynamicOps : List (String × String) := []
  dynamicOps : List ((String × String) × (Op → Decision)) := []
  dynamicDialects : List (String × (Op → Decision)) := []
  dynamicUnknown : Option (Op → Decision) := none

/-- One registration. -/
inductive Rule where
  | legalDialect (d : String)
  | illegalDialect (d : String)
  | legalOp (k : String × String)
  | illegalOp (k : String × String)
  | recursiveLegalOp (k : String × String)
  | recursiveDynamicOp (k : String × String)
  | dynamicOp (k : String × String) (f : Op → Decision)
  | dynamicDialect (d : String) (f : Op → Decision)
  | dynamicUnknown (f : Op → Decision)

/-- The `add_` functions, conversion_target.rs 170-332; `none` is a panic. -/
def Target.add (t : Target) : Rule → Option Target
  | .legalDialect d =>
    if t.illegalDialects.contains d || t.legalDialects.contains d then none
    else some { t with legalDialects := d :: t.legalDialects }
  | .illegalDialect d =>
    if t.legalDialects.contains d || t.illegalDialects.contains d then none
    else some { t with illegalDialects := d :: t.illegalDialects }
  | .legalOp k =>
    if t.illegalOps.contains k || t.legalOps.contains k then none
    else some { t with legalOps := k :: t.legalOps }
  | .illegalOp k =>
    if t.legalOps.contains k || t.illegalOps.contains k then none
    else some { t with illegalOps := k :: t.illegalOps }
  | .recursiveLegalOp k =>
    if !t.legalOps.contains k || t.recursiveLegalOps.contains k then none
    else some { t with recursiveLegalOps := k :: t.recursiveLegalOps }
  | .recursiveDynamicOp k =>
    if !(t.dynamicOps.lookup k).isSome || t.recursiveDynamicOps.contains k then none
    else some { t with recursiveDynamicOps := k :: t.recursiveDynamicOps }
  | .dynamicOp k f =>
    if (t.dynamicOps.lookup k).isSome then none
    else some { t with dynamicOps := (k, f) :: t.dynamicOps }
  | .dynamicDialect d f =>
    if (t.dynamicDialects.lookup d).isSome then none
    else some { t with dynamicDialects := (d, f) :: t.dynamicDialects }
  | .dynamicUnknown f =>
    if t.dynamicUnknown.isSome then none else some { t with dynamicUnknown := some f }

def Target.addAll (t : Target) : List Rule → Option Target
  | [] => some t
  | r :: rs => (t.add r).bind fun t' => t'.addAll rs

/-- `ConversionTarget::new()` and registrations. -/
def build (rules : List Rule) : Option Target := ({} : Target).addAll rules

/-- `has_constraints`, conversion_target.rs 335-345. -/
def Target.hasConstraints (t : Target) : Bool :=
  !t.legalDialects.isEmpty || !t.illegalDialects.isEmpty || !t.legalOps.isEmpty ||
  !t.illegalOps.isEmpty || !t.recursiveLegalOps.isEmpty || !t.recursiveDynamicOps.isEmpty ||
  !t.dynamicOps.isEmpty || !t.dynamicDialects.isEmpty || t.dynamicUnknown.isSome

/-- The answer of a dynamic rule, if there is one and it decides. -/
def ask (f : Option (Op → Decision)) (op : Op) : Option Check := f.bind fun g => (g op).intoCheck

/-- `is_legal`, conversion_target.rs 356-396. -/
def Target.isLegal (t : Target) (op : Op) : Check :=
  match ask (t.dynamicOps.lookup op.key) op with
  | some c => c
  | none =>
    if t.legalOps.contains op.key then .legal
    else if t.illegalOps.contains op.key then .illegal
    else
      match ask (t.dynamicDialects.lookup op.dialect) op with
      | some c => c
      | none =>
        if t.legalDialects.contains op.dialect then .legal
        else if t.illegalDialects.contains op.dialect then .illegal
        else (ask t.dynamicUnknown op).getD .unknown

/-- `is_recursively_legal`, conversion_target.rs 399-411. -/
def Target.isRecursivelyLegal (t : Target) (op : Op) : Bool :=
  (t.recursiveDynamicOps.contains op.key &&
    (match t.dynamicOps.lookup op.key with
      | some f => f op == .legal
      | none => false)) ||
  (t.recursiveLegalOps.contains op.key && t.isLegal op == .legal)

/-- `ConversionMode`, conversion_target.rs 51-61. -/
inductive Mode where
  | partialMode
  | full
deriving DecidableEq, Repr

def failed (mode : Mode) (c : Check) : Bool :=
  match mode with
  | .partialMode => c == .illegal
  | .full => c != .legal

mutual
/-- `verify_mode`, conversion_target.rs 432-465, with `walk_op` and `walk_region` of walk.rs 22-60. -/
def verifyOp (t : Target) (mode : Mode) : Op → List (Op × Check)
  | .mk d n x body =>
    (if failed mode (t.isLegal (.mk d n x body)) then [(.mk d n x body, t.isLegal (.mk d n x body))]
      else []) ++
    (if t.isRecursivelyLegal (.mk d n x body) then [] else verifyOps t mode body)

def verifyOps (t : Target) (mode : Mode) : List Op → List (Op × Check)
  | [] => []
  | op :: ops => verifyOp t mode op ++ verifyOps t mode ops
end

/-! ## The driver -/

/-- What becomes of the operation itself, rewriter.rs 14-17. -/
inductive Fate where
  | keep
  | replace (op : Op)
  | erase

/-- `Mutations`, rewriter.rs 11-20. -/
structure Rewrite where
  before : List Op := []
  fate : Fate := .keep
  moduleOps : List Op := []

/-- `has_mutations`, rewriter.rs 97-102. -/
def Rewrite.hasMutations (rw : Rewrite) : Bool :=
  !rw.before.isEmpty || (match rw.fate with | .keep => false | _ => true) || !rw.moduleOps.isEmpty

/-- `apply_mutations`, rewriter.rs 147-225: what stands in the block in place of the operation. -/
def Rewrite.inPlace (rw : Rewrite) (op : Op) : List Op :=
  rw.before ++
    (match rw.fate with
      | .keep => [op]
      | .replace new => [new]
      | .erase => [])

/-- `RewritePattern`, pattern.rs: `none` if it does not match. -/
abbrev Pattern := Op → Option Rewrite

/-- The first pattern that matches with mutations, applicator.rs 348-358. -/
def firstMatch : List Pattern → Op → Option Rewrite
  | [], _ => none
  | p :: ps, op =>
    match p op with
    | some rw => if rw.hasMutations then some rw else firstMatch ps op
    | none => firstMatch ps op

/-- What a visit leaves: the operations in place, operations for the module, and the number of
changes. -/
structure Visit where
  ops : List Op
  moduleOps : List Op
  changes : Nat

/-- The operation itself, after its nested operations: applicator.rs 333-359. -/
def visitHere (t : Target) (ps : List Pattern) (op : Op) (v : Visit) : Visit :=
  if t.hasConstraints && t.isLegal (op.withBody v.ops) == .legal then
    ⟨[op.withBody v.ops], v.moduleOps, v.changes⟩
  else
    match firstMatch ps (op.withBody v.ops) with
    | none => ⟨[op.withBody v.ops], v.moduleOps, v.changes⟩
    | some rw =>
      ⟨rw.inPlace (op.withBody v.ops), v.moduleOps ++ rw.moduleOps, v.changes + 1⟩

mutual
/-- `visit_block` and `visit_region`, applicator.rs 275-363: operations inserted by patterns are not
visited in the same round. -/
def visitOp (t : Target) (ps : List Pattern) : Op → Visit
  | .mk d n x body =>
    if t.hasConstraints && t.isRecursivelyLegal (.mk d n x body) then ⟨[.mk d n x body], [], 0⟩
    else visitHere t ps (.mk d n x body) (visitOps t ps body)

def visitOps (t : Target) (ps : List Pattern) : List Op → Visit
  | [] => ⟨[], [], 0⟩
  | op :: ops =>
    ⟨(visitOp t ps op).ops ++ (visitOps t ps ops).ops,
      (visitOp t ps op).moduleOps ++ (visitOps t ps ops).moduleOps,
      (visitOp t ps op).changes + (visitOps t ps ops).changes⟩
end

/-- Where the driver works: a module, or the body of a function (applicator.rs 19-66), where there is
no block for module operations. -/
inductive Scope where
  | module
  | function
deriving DecidableEq, Repr

/-- `run_one_iteration`, applicator.rs 258-273, and the insertion of module operations,
rewriter.rs 220-225. -/
def runOne (t : Target) (ps : List Pattern) (scope : Scope) (ops : List Op) : List Op × Nat :=
  let v := visitOps t ps ops
  (match scope with
    | .module => v.ops ++ v.moduleOps
    | .function => v.ops, v.changes)

/-- `ApplyResult`, applicator.rs 69-76, and the operations left. -/
structure Result where
  ops : List Op
  iterations : Nat
  totalChanges : Nat
  reachedFixpoint : Bool

/-- `apply_partial`, applicator.rs 196-221, `n` rounds left. -/
def loop (t : Target) (ps : List Pattern) (scope : Scope) : Nat → Nat → Nat → List Op → Result
  | 0, it, ch, ops => ⟨ops, it, ch, false⟩
  | n + 1, it, ch, ops =>
    let r := runOne t ps scope ops
    if r.2 = 0 then ⟨r.1, it + 1, ch, true⟩
    else loop t ps scope n (it + 1) (ch + r.2) r.1

def applyPartial (t : Target) (ps : List Pattern) (scope : Scope) (maxIterations : Nat)
    (ops : List Op) : Result :=
  loop t ps scope maxIterations 0 0 ops

/-- `max_iterations`, applicator.rs 134. -/
def defaultMaxIterations : Nat := 10

/-- `apply_partial_conversion` and `apply_full_conversion`, applicator.rs 228-255. -/
def applyConversion (t : Target) (ps : List Pattern) (scope : Scope) (maxIterations : Nat)
    (mode : Mode) (ops : List Op) : Except (List (Op × Check)) Result :=
  let r := applyPartial t ps scope maxIterations ops
  let bad := verifyOps t mode r.ops
  if bad.isEmpty then .ok r else .error bad

end Verif.Convert
