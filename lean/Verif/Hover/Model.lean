/-
Model of hover in the language server: the type index built from a typed file and
the lookup of a byte offset in it.

  /repo/src/lsp/type_index.rs                     (the index)
  /repo/src/lsp/server.rs 203-213                 (the request)
  /repo/crates/tribute-front/src/typeck/checker/expr.rs 1277-1310, func_check.rs 772-820,
  tdnr/resolver.rs 608-653                        (method calls become calls; all three alike)
  /repo/crates/tribute-front/src/astgen/expressions.rs (the Nil of a block that ends in a statement)

Node ids and the span map are collapsed: every node carries the span that
`span_map.get_or_default(id)` returns for it (ids are drawn fresh for every node of
the file, `AstLoweringCtx::fresh_id_with_span`).  A node that is given another
node's id is written with that node's span.
-/
namespace Verif.Hover

/-- `trunk_ir::Span`: byte offsets, the end exclusive. -/
structure Span where
  start : Nat
  stop : Nat
  deriving DecidableEq, Repr

/-- The primitive types of type_index.rs 26 (`primitive_name`) that literals have. -/
inductive Prim | nat | int | float | bytes | bool | nil | rune
  deriving DecidableEq, Repr

/-- `TypeKind`, as far as hover looks at it: primitives, declared types and function
types (effect rows and conventions left out). -/
inductive Ty
  | prim (p : Prim)
  | named (name : String) (args : List Ty)
  | func (params : List Ty) (result : Ty)
  deriving Repr

/-- Literals (`ExprKind::NatLit` … `ExprKind::RuneLit`, and `ExprKind::Nil`). -/
inductive Lit | nat | int | float | string | bytes | bool | nil | rune
  deriving DecidableEq, Repr

/-- The types that `collect_expr` gives literals (type_index.rs 266-297, 381-385). -/
def litTy : Lit → Ty
  | .nat => .prim .nat
  | .int => .prim .int
  | .float => .prim .float
  | .string => .named "String" []
  | .bytes => .prim .bytes
  | .bool => .prim .bool
  | .nil => .prim .nil
  | .rune => .prim .rune

/-- Patterns (`PatternKind<TypedRef>`). -/
inductive Pat
  | wildcard (sp : Span)
  | bind (sp : Span)
  | lit (sp : Span)
  | variant (sp : Span) (ctor : Ty) (fields : List Pat)
  /-- `fields` are the sub-patterns that are written out. -/
  | record (sp : Span) (type_name : Option Ty) (fields : List Pat)
  | tuple (sp : Span) (elems : List Pat)
  | list (sp : Span) (elems : List Pat)
  | listRest (sp : Span) (head : List Pat)
  | as_ (sp : Span) (inner : Pat)
  | error (sp : Span)

mutual

/-- Typed expressions (`ExprKind<TypedRef>`).  A method call carries the type of the
function that type-directed resolution finds, if it finds one; operators and field
accesses are method calls (astgen/expressions.rs 186-209). -/
inductive Expr
  | var (sp : Span) (ty : Ty)
  | lit (sp : Span) (l : Lit)
  | call (sp : Span) (callee : Expr) (args : List Expr)
  | cons (sp : Span) (ctor : Ty) (args : List Expr)
  | record (sp : Span) (type_name : Ty) (fields : List Expr) (spread : Option Expr)
  | method (sp : Span) (target : Option Ty) (receiver : Expr) (args : List Expr)
  | block (sp : Span) (stmts : List Stmt) (value : Expr)
  /-- A block as it is written, without a value expression (empty, or ending in a `let`
  statement: `is_statement_node`, astgen/expressions.rs 368-370); only before `lowerExpr`. -/
  | blockNoValue (sp : Span) (stmts : List Stmt)
  | case (sp : Span) (scrutinee : Expr) (arms : List Arm)
  | lambda (sp : Span) (body : Expr)
  | handle (sp : Span) (body : Expr) (handlers : List Handler)
  | resume (sp : Span) (arg : Expr)
  | tuple (sp : Span) (elems : List Expr)
  | list (sp : Span) (elems : List Expr)
  | binop (sp : Span) (lhs rhs : Expr)
  | error (sp : Span)

/-- `Stmt`, with the span of its syntax node. -/
inductive Stmt
  | let_ (sp : Span) (pattern : Pat) (value : Expr)
  | expr (sp : Span) (e : Expr)

/-- `Arm`. -/
inductive Arm
  | mk (sp : Span) (pattern : Pat) (guard : Option Expr) (body : Expr)

/-- `HandlerArm`: `HandlerKind::Do`, or `HandlerKind::Fn`/`HandlerKind::Op`. -/
inductive Handler
  | do_ (sp : Span) (binding : Pat) (body : Expr)
  | op (sp : Span) (ability : Ty) (params : List Pat) (body : Expr)

end

/-- Declarations; only functions have expressions (type_index.rs 228-250). -/
inductive Decl
  | function (body : Expr)
  | other
  | module (body : List Decl)

/-- The span of a statement's syntax node. -/
def stmtSpan : Stmt → Span
  | .let_ sp _ _ => sp
  | .expr sp _ => sp

/-- The span of the Nil that a block without a value gets
(astgen/expressions.rs 397-414): that of the last statement, or of the block. -/
def nilSpan (blockSp : Span) : List Stmt → Span
  | [] => blockSp
  | [s] => stmtSpan s
  | _ :: s :: rest => nilSpan blockSp (s :: rest)

mutual

/-- What the front end makes of an expression before the index is built: blocks get
their value (astgen/expressions.rs 397-414) and resolved method calls become calls
of a variable that has the id of the method call (typeck/checker/expr.rs
1285-1300, func_check.rs 800-811, tdnr/resolver.rs 516-653). -/
def lowerExpr : Expr → Expr
  | .var sp ty => .var sp ty
  | .lit sp l => .lit sp l
  | .call sp callee args => .call sp (lowerExpr callee) (lowerExprs args)
  | .cons sp ctor args => .cons sp ctor (lowerExprs args)
  | .record sp tn fields spread => .record sp tn (lowerExprs fields) (lowerOpt spread)
  | .method sp (some ty) receiver args =>
      .call sp (.var sp ty) (lowerExpr receiver :: lowerExprs args)
  | .method sp none receiver args => .method sp none (lowerExpr receiver) (lowerExprs args)
  | .block sp stmts value => .block sp (lowerStmts stmts) (lowerExpr value)
  | .blockNoValue sp stmts =>
      .block sp (lowerStmts stmts) (.lit (nilSpan sp stmts) .nil)
  | .case sp scrutinee arms => .case sp (lowerExpr scrutinee) (lowerArms arms)
  | .lambda sp body => .lambda sp (lowerExpr body)
  | .handle sp body handlers => .handle sp (lowerExpr body) (lowerHandlers handlers)
  | .resume sp arg => .resume sp (lowerExpr arg)
  | .tuple sp elems => .tuple sp (lowerExprs elems)
  | .list sp elems => .list sp (lowerExprs elems)
  | .binop sp lhs rhs => .binop sp (lowerExpr lhs) (lowerExpr rhs)
  | .error sp => .error sp

/-- `args.into_iter().map(|a| self.resolve_expr(a))`. -/
def lowerExprs : List Expr → List Expr
  | [] => []
  | e :: es => lowerExpr e :: lowerExprs es

/-- `spread.map(|e| self.resolve_expr(e))`. -/
def lowerOpt : Option Expr → Option Expr
  | none => none
  | some e => some (lowerExpr e)

/-- `resolve_stmt` on every statement. -/
def lowerStmts : List Stmt → List Stmt
  | [] => []
  | .let_ sp p v :: ss => .let_ sp p (lowerExpr v) :: lowerStmts ss
  | .expr sp e :: ss => .expr sp (lowerExpr e) :: lowerStmts ss

/-- `resolve_arm` on every arm. -/
def lowerArms : List Arm → List Arm
  | [] => []
  | .mk sp p g b :: as => .mk sp p (lowerOpt g) (lowerExpr b) :: lowerArms as

/-- `resolve_handler_arm` on every handler arm. -/
def lowerHandlers : List Handler → List Handler
  | [] => []
  | .do_ sp p b :: hs => .do_ sp p (lowerExpr b) :: lowerHandlers hs
  | .op sp a ps b :: hs => .op sp a ps (lowerExpr b) :: lowerHandlers hs

end

mutual

/-- `resolve_decl` (bodies of functions, recursively through modules). -/
def lowerDecl : Decl → Decl
  | .function body => .function (lowerExpr body)
  | .other => .other
  | .module body => .module (lowerDecls body)

/-- `resolve_module`. -/
def lowerDecls : List Decl → List Decl
  | [] => []
  | d :: ds => lowerDecl d :: lowerDecls ds

end

/-- `AstTypeEntry` (type_index.rs 136-144). -/
structure Entry where
  span : Span
  ty : Ty
  deriving Repr

mutual

/-- `collect_pattern` (type_index.rs 400-439). -/
def collectPat : Pat → List Entry
  | .wildcard _ => []
  | .bind _ => []
  | .lit _ => []
  | .variant sp ctor fields => ⟨sp, ctor⟩ :: collectPats fields
  | .record sp (some tn) fields => ⟨sp, tn⟩ :: collectPats fields
  | .record _ none fields => collectPats fields
  | .tuple _ elems => collectPats elems
  | .list _ elems => collectPats elems
  | .listRest _ head => collectPats head
  | .as_ _ inner => collectPat inner
  | .error _ => []

/-- The loops over sub-patterns. -/
def collectPats : List Pat → List Entry
  | [] => []
  | p :: ps => collectPat p ++ collectPats ps

end

mutual

/-- `collect_expr` (type_index.rs 257-387). -/
def collectExpr : Expr → List Entry
  | .var sp ty => [⟨sp, ty⟩]
  | .lit sp l => [⟨sp, litTy l⟩]
  | .call _ callee args => collectExpr callee ++ collectExprs args
  | .cons sp ctor args => ⟨sp, ctor⟩ :: collectExprs args
  | .record sp tn fields spread => ⟨sp, tn⟩ :: (collectExprs fields ++ collectOpt spread)
  | .method _ _ receiver args => collectExpr receiver ++ collectExprs args
  | .block _ stmts value => collectStmts stmts ++ collectExpr value
  | .blockNoValue _ stmts => collectStmts stmts
  | .case _ scrutinee arms => collectExpr scrutinee ++ collectArms arms
  | .lambda _ body => collectExpr body
  | .handle _ body handlers => collectExpr body ++ collectHandlers handlers
  | .resume _ arg => collectExpr arg
  | .tuple _ elems => collectExprs elems
  | .list _ elems => collectExprs elems
  | .binop _ lhs rhs => collectExpr lhs ++ collectExpr rhs
  | .error _ => []

/-- The loops over sub-expressions. -/
def collectExprs : List Expr → List Entry
  | [] => []
  | e :: es => collectExpr e ++ collectExprs es

/-- An optional sub-expression (`spread`, `guard`). -/
def collectOpt : Option Expr → List Entry
  | none => []
  | some e => collectExpr e

/-- `collect_stmt` (type_index.rs 389-398) on every statement. -/
def collectStmts : List Stmt → List Entry
  | [] => []
  | .let_ _ p v :: ss => collectPat p ++ (collectExpr v ++ collectStmts ss)
  | .expr _ e :: ss => collectExpr e ++ collectStmts ss

/-- `collect_arm` (type_index.rs 441-447) on every arm. -/
def collectArms : List Arm → List Entry
  | [] => []
  | .mk _ p g b :: as => collectPat p ++ (collectOpt g ++ (collectExpr b ++ collectArms as))

/-- `collect_handler` (type_index.rs 449-467) on every handler arm. -/
def collectHandlers : List Handler → List Entry
  | [] => []
  | .do_ _ p b :: hs => collectPat p ++ (collectExpr b ++ collectHandlers hs)
  | .op sp a ps b :: hs =>
      ⟨sp, a⟩ :: (collectPats ps ++ (collectExpr b ++ collectHandlers hs))

end

mutual

/-- `collect_decl` (type_index.rs 231-250). -/
def collectDecl : Decl → List Entry
  | .function body => collectExpr body
  | .other => []
  | .module body => collectDecls body

/-- `collect_module` (type_index.rs 225-229). -/
def collectDecls : List Decl → List Entry
  | [] => []
  | d :: ds => collectDecl d ++ collectDecls ds

end

/-- The sort key `(start, end)`, compared lexicographically (type_index.rs 173). -/
def keyLe (a b : Entry) : Bool :=
  a.span.start < b.span.start ||
    (a.span.start == b.span.start && a.span.stop ≤ b.span.stop)

/-- One step of a stable sort. -/
def insertEntry (x : Entry) : List Entry → List Entry
  | [] => [x]
  | y :: ys => if keyLe x y then x :: y :: ys else y :: insertEntry x ys

/-- `entries.sort_by_key(|e| (e.span.start, e.span.end))` (type_index.rs 173), which is
stable. -/
def sortEntries : List Entry → List Entry
  | [] => []
  | x :: xs => insertEntry x (sortEntries xs)

/-- `AstTypeIndex::build` (type_index.rs 161-184). -/
def buildIndex (file : List Decl) : List Entry := sortEntries (collectDecls (lowerDecls file))

/-- `e.span.start <= offset && offset < e.span.end` (type_index.rs 199). -/
def containsOffset (offset : Nat) (e : Entry) : Bool :=
  e.span.start ≤ offset && offset < e.span.stop

/-- `e.span.end - e.span.start` (type_index.rs 205). -/
def entryLen (e : Entry) : Nat := e.span.stop - e.span.start

/-- `min_by_key`, which keeps the first of several minimal elements. -/
def minByLen : List Entry → Option Entry
  | [] => none
  | x :: xs =>
    match minByLen xs with
    | none => some x
    | some y => if entryLen x ≤ entryLen y then some x else some y

/-- `type_at` (type_index.rs 189-207). -/
def typeAt (index : List Entry) (offset : Nat) : Option Entry :=
  minByLen (index.filter (containsOffset offset))

/-- The answer to a hover request on a file: the type shown and the range that is
highlighted (server.rs 207-213; the built-in abilities of 215 are left out, and the
printing of the type). -/
def hover (file : List Decl) (offset : Nat) : Option Entry := typeAt (buildIndex file) offset

end Verif.Hover
