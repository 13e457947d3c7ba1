/-
What the command line tool does with the errors the compiler finds.

Files modelled:
  /repo/src/main.rs 65-190                      (compile_file)
  /repo/src/diagnostics.rs 24-96                (normalize_span, print_diagnostic, report_diagnostics)
  /repo/src/pipeline.rs 514-528                 (compile_frontend_with_options: the only check for errors)
  /repo/src/pipeline.rs 952-1004, 1263-1307     (the two tracked functions that produce a binary)
  /repo/src/pipeline.rs 1521-1597               (compile_with_diagnostics, compare_diagnostics)
  /repo/crates/tribute-front/src/ast_to_ir/lower/expr.rs 91-118, 167, 313-373, 637-737, 871-885,
  1161-1251, lower/mod.rs 108-114, 341-390, lower/decl.rs 466-510
                                                (lowering of expressions, with its own errors)
-/

namespace Verif.Report

/-- A span of the source in bytes. /repo/crates/trunk-ir/src/location.rs 5-12. -/
structure Span where
  start : Nat
  stop : Nat
deriving DecidableEq, Repr

/-- /repo/crates/trunk-ir/src/diagnostic.rs 28-34. -/
inductive Severity where
  | error | warning | info
deriving DecidableEq, Repr

/-- /repo/crates/tribute-core/src/diagnostic.rs 19-29. -/
inductive Phase where
  | parsing | astGeneration | tirGeneration | nameResolution | typeChecking | lowering
  | optimization
deriving DecidableEq, Repr

/-- A diagnostic. /repo/crates/trunk-ir/src/diagnostic.rs 7-25, with the phase that
/repo/crates/tribute-core/src/diagnostic.rs 7-17 adds. -/
structure Diag where
  severity : Severity
  phase : Phase
  span : Span
  message : String
  labels : List (Span × String) := []
  note : Option String := none
deriving DecidableEq, Repr

/-- `severity == DiagnosticSeverity::Error`. -/
def Diag.isError (d : Diag) : Bool := d.severity == .error

/-! ### Lowering to the intermediate representation -/

/- Expressions after type checking. Simplification: integer literals, unit, local variables, calls of
named functions, blocks and record construction without a base record; a function call is kept
abstract. A record expression carries the declared field order of its struct, as
`get_struct_field_order` gives it. -/
mutual
inductive Expr where
  | nat (sp : Span) (n : Nat)
  | int (sp : Span) (n : Int)
  | nil
  | var (x : Nat)
  | call (f : String) (args : List Expr)
  | block (stmts : List Stmt) (value : Expr)
  | record (sp : Span) (order : List String) (fields : List Field)
/-- `Stmt::Let` with a variable pattern, and `Stmt::Expr`. -/
inductive Stmt where
  | bind (x : Nat) (e : Expr)
  | expr (e : Expr)
/-- One `name: expression` of a record expression. -/
inductive Field where
  | mk (name : String) (e : Expr)
end

/-- Operations of a function body: `arith.const` of an integer, of the unit value, `func.call`,
`adt.struct_new`, `func.return`. Operands and results are numbered. -/
inductive Op where
  | const (d : Nat) (n : Int)
  | unit (d : Nat)
  | call (d : Nat) (f : String) (args : List Nat)
  | structNew (d : Nat) (args : List Nat)
  | ret (v : Nat)
deriving DecidableEq, Repr

/-- The builder: the next result, the operations so far and the diagnostics accumulated so far. -/
structure St where
  next : Nat := 0
  ops : List Op := []
  diags : List Diag := []

/-- `Diagnostic::new(..).accumulate(db)`. -/
def St.report (s : St) (sp : Span) (msg : String) : St :=
  { s with diags := s.diags ++
      [{ severity := .error, phase := .lowering, span := sp, message := msg }] }

/-- Pushing an operation with a result. -/
def St.emit (s : St) (op : Nat → Op) : Option Nat × St :=
  (some s.next, { s with next := s.next + 1, ops := s.ops ++ [op s.next] })

/-- The scope: values of the local variables, innermost first. -/
abbrev Ctx := List (Nat × Nat)

/-- `I31_MAX`, lower/mod.rs 350, 375. -/
def i31Max : Int := 2 ^ 30 - 1

/-- `I31_MIN`, lower/mod.rs 374. -/
def i31Min : Int := -(2 ^ 30)

/-- The second loop of the record case, expr.rs 700-722: the values in declared order, or the first
field that is missing. -/
def assemble (m : List (String × Nat)) : List String → String ⊕ List Nat
  | [] => .inr []
  | f :: fs =>
    match m.lookup f with
    | none => .inl f
    | some r =>
      match assemble m fs with
      | .inl g => .inl g
      | .inr rs => .inr (r :: rs)

mutual
/-- `lower_value_impl`, expr.rs 91-740. `none` is Rust's `None`: the expression has no value, and
whoever asked for it gives up. -/
def lower (c : Ctx) : Expr → St → Option Nat × St
  | .nat sp n, s =>
    -- `validate_nat_i31`, lower/mod.rs 345-365
    if i31Max < (n : Int) then (none, s.report sp "natural number literal exceeds i31 range")
    else s.emit fun d => .const d n
  | .int sp n, s =>
    -- `validate_int_i31`, lower/mod.rs 370-392
    if i31Min ≤ n ∧ n ≤ i31Max then s.emit fun d => .const d n
    else (none, s.report sp "integer literal exceeds i31 range")
  | .nil, s => s.emit fun d => .unit d
  | .var x, s => (c.lookup x, s)
  | .call f args, s =>
    match lowerArgs c args s with
    | (none, s) => (none, s)
    | (some rs, s) => s.emit fun d => .call d f rs
  | .block stmts v, s =>
    match lowerStmts c stmts s with
    | (c', s) => lower c' v s
  | .record sp order fields, s =>
    match lowerFields c sp order [] fields s with
    | (none, s) => (none, s)
    | (some m, s) =>
      match assemble m order with
      | .inl _ => (s.report sp "missing field").emit fun d => .unit d
      | .inr rs => s.emit fun d => .structNew d rs
/-- `lower_value_args`, expr.rs 871-885: collecting into an `Option` stops at the first `None`. -/
def lowerArgs (c : Ctx) : List Expr → St → Option (List Nat) × St
  | [], s => (some [], s)
  | e :: es, s =>
    match lower c e s with
    | (none, s) => (none, s)
    | (some r, s) =>
      match lowerArgs c es s with
      | (none, s) => (none, s)
      | (some rs, s) => (some (r :: rs), s)
/-- The first loop of the record case, expr.rs 669-692. -/
def lowerFields (c : Ctx) (sp : Span) (order : List String) (m : List (String × Nat)) :
    List Field → St → Option (List (String × Nat)) × St
  | [], s => (some m, s)
  | .mk name e :: fs, s =>
    if name ∉ order then lowerFields c sp order m fs (s.report sp "unknown field")
    else if (m.lookup name).isSome then lowerFields c sp order m fs (s.report sp "duplicate field")
    else
      match lower c e s with
      | (none, s) => (none, s)
      | (some r, s) => lowerFields c sp order (m ++ [(name, r)]) fs s
/-- The statements of a block, expr.rs 1161-1172 and 1231-1251: a statement whose value cannot be
lowered is left out. -/
def lowerStmts (c : Ctx) : List Stmt → St → Ctx × St
  | [], s => (c, s)
  | .bind x e :: ss, s =>
    match lower c e s with
    | (none, s) => lowerStmts c ss s
    | (some r, s) => lowerStmts ((x, r) :: c) ss s
  | .expr e :: ss, s =>
    match lower c e s with
    | (_, s) => lowerStmts c ss s
end

/-- The body of a function that returns normally, decl.rs 471-510: a body without a value becomes
the unit value. Simplification: `main`, without parameters. -/
def lowerMain (e : Expr) : St :=
  match lower [] e {} with
  | (some r, s) => { s with ops := s.ops ++ [.ret r] }
  | (none, s) => { s with next := s.next + 1, ops := s.ops ++ [.unit s.next, .ret s.next] }

/-! ### Producing a binary -/

/-- What the front end (parsing to type-directed name resolution) hands on: its diagnostics and the
checked body of `main`. -/
structure Front where
  diags : List Diag
  main : Expr

/-- The rest of the compiler: an error message, or nothing if it succeeds. -/
abbrev Backend := List Op → Option String

/-- `compile_to_native_binary`, pipeline.rs 1265-1307, and `compile_to_wasm_binary_tracked`,
pipeline.rs 953-992, with `compile_frontend_with_options`, pipeline.rs 516-528: the program and the
accumulated diagnostics. The program stands for its bytes. Simplification: the diagnostics of the
call arity check are left out. -/
def compileBinary (front : Front) (backend : Backend) : Option (List Op) × List Diag :=
  if front.diags.any Diag.isError then (none, front.diags)
  else
    let s := lowerMain front.main
    match backend s.ops with
    | none => (some s.ops, front.diags ++ s.diags)
    | some msg =>
      (none, front.diags ++ s.diags ++
        [{ severity := .error, phase := .lowering, span := ⟨0, 0⟩, message := msg }])

/-- The diagnostics that `compile_with_diagnostics`, pipeline.rs 1553-1570, collects, before they
are sorted. Simplification: no pass of the shared pipeline fails. -/
def collectDiagnostics (front : Front) : List Diag :=
  if front.diags.any Diag.isError then front.diags
  else front.diags ++ (lowerMain front.main).diags

/-- `phase_rank`, pipeline.rs 1579-1589. -/
def Phase.rank : Phase → Nat
  | .parsing => 0
  | .astGeneration => 1
  | .tirGeneration => 2
  | .nameResolution => 3
  | .typeChecking => 4
  | .lowering => 5
  | .optimization => 6

/-- `compare_diagnostics(a, b) != Greater`, pipeline.rs 1591-1594: phase, then span (start, then
end), then message. -/
def compareLe (a b : Diag) : Bool :=
  if a.phase.rank ≠ b.phase.rank then a.phase.rank < b.phase.rank
  else if a.span.start ≠ b.span.start then a.span.start < b.span.start
  else if a.span.stop ≠ b.span.stop then a.span.stop < b.span.stop
  else decide (a.message ≤ b.message)

/-- Insertion into a sorted list, before the first element that is not smaller. -/
def insertDiag (d : Diag) : List Diag → List Diag
  | [] => [d]
  | x :: xs => if compareLe d x then d :: x :: xs else x :: insertDiag d xs

/-- `diagnostics.sort_by(compare_diagnostics)`: a stable sort. -/
def sortDiags : List Diag → List Diag
  | [] => []
  | d :: ds => insertDiag d (sortDiags ds)

/-! ### The command line tool -/

/-- The targets of `tribute compile`. -/
inductive Target where
  | native | wasm | check
deriving DecidableEq, Repr

/-- What a run of the tool leaves behind: the exit status, the program written, and the diagnostics
printed, in order. -/
structure Outcome where
  status : Nat
  output : Option (List Op)
  reports : List Diag
deriving DecidableEq, Repr

/-- `report_diagnostics`, diagnostics.rs 75-96. -/
def reportDiagnostics (front : Front) (accumulated : List Diag) : List Diag :=
  if accumulated ≠ [] then sortDiags accumulated else sortDiags (collectDiagnostics front)

/-- `compile_file`, main.rs 65-190, without `--dump-ir`. `written` says whether linking (native) or
writing the file (wasm) succeeds. -/
def compileFile (target : Target) (front : Front) (backend : Backend) (written : Bool) : Outcome :=
  match target with
  | .native | .wasm =>
    match compileBinary front backend with
    | (some p, _) => if written then ⟨0, some p, []⟩ else ⟨1, none, []⟩
    | (none, ds) => ⟨1, none, reportDiagnostics front ds⟩
  | .check =>
    let ds := sortDiags (collectDiagnostics front)
    if ds = [] then ⟨0, none, []⟩ else ⟨1, none, ds⟩

/-! ### Printing one diagnostic -/

/-- `normalize_span`, diagnostics.rs 25-27. -/
def normalizeSpan (sp : Span) : Nat × Nat := (sp.start, max sp.stop (sp.start + 1))

/-- How the reporting library reads the ranges of labels. -/
inductive IndexType where
  | char | byte
deriving DecidableEq

/-- The default configuration of ariadne 0.6 (`Config::default`), which `print_diagnostic`
(diagnostics.rs 30-69) does not change: ranges count characters. -/
def indexType : IndexType := .char

/-- The number of characters before a byte offset. -/
def charsBefore : List Char → Nat → Nat
  | [], _ => 0
  | c :: cs, k => if k = 0 then 0 else 1 + charsBefore cs (k - c.utf8Size)

/-- The range of characters that a label marks. -/
def markedRange (text : List Char) (r : Nat × Nat) : Nat × Nat :=
  match indexType with
  | .char => r
  | .byte => (charsBefore text r.1, charsBefore text r.2)

/-- The text that `print_diagnostic` underlines for the main span of a diagnostic. -/
def underlined (text : List Char) (d : Diag) : List Char :=
  let r := markedRange text (normalizeSpan d.span)
  (text.drop r.1).take (r.2 - r.1)

/-- The line number in the header of the report. -/
def shownLine (text : List Char) (d : Diag) : Nat :=
  let r := markedRange text (normalizeSpan d.span)
  ((text.take r.1).filter (· = '\n')).length + 1

end Verif.Report
