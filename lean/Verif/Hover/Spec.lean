import Verif.Hover.Model
/-
Specification of hover.  A file is seen as a tree of source ranges: an expression or
pattern with no parts that the reader can point at separately (a variable, a literal,
a constructor without arguments) is a leaf with its type; everything else is a node
with its parts in the order of the text.
-/
namespace Verif.Hover.Spec

/-- The source tree. -/
inductive Tree
  /-- A leaf and its type. -/
  | leaf (sp : Span) (ty : Ty)
  /-- An expression or pattern with its parts. -/
  | node (sp : Span) (kids : List Tree)
  /-- A piece of syntax that is not itself an expression or pattern (a statement):
  it may be no longer than its only part. -/
  | wrap (sp : Span) (kids : List Tree)

def Tree.span : Tree → Span
  | .leaf sp _ => sp
  | .node sp _ => sp
  | .wrap sp _ => sp

/-- The offset lies in the range. -/
def _root_.Verif.Hover.Span.Has (s : Span) (o : Nat) : Prop := s.start ≤ o ∧ o < s.stop

/-- The range lies in the other. -/
def _root_.Verif.Hover.Span.Within (s t : Span) : Prop := t.start ≤ s.start ∧ s.stop ≤ t.stop

/-- The two ranges have no offset in common. -/
def _root_.Verif.Hover.Span.Apart (s t : Span) : Prop := ∀ o, s.Has o → ¬ t.Has o

/-- What parsing gives: parts lie inside the whole, the parts of an expression or
pattern are smaller than it, and different parts do not overlap. -/
inductive Nested : Tree → Prop
  | leaf {sp ty} : Nested (.leaf sp ty)
  | node {sp kids} :
      (∀ k ∈ kids, k.span.Within sp ∧ k.span ≠ sp) →
      kids.Pairwise (fun a b => a.span.Apart b.span) →
      (∀ k ∈ kids, Nested k) → Nested (.node sp kids)
  | wrap {sp kids} :
      (∀ k ∈ kids, k.span.Within sp) →
      kids.Pairwise (fun a b => a.span.Apart b.span) →
      (∀ k ∈ kids, Nested k) → Nested (.wrap sp kids)

/-- The tree contains the other tree. -/
inductive Contains : Tree → Tree → Prop
  | here {t} : Contains t t
  | node {sp kids k t} : k ∈ kids → Contains k t → Contains (.node sp kids) t
  | wrap {sp kids k t} : k ∈ kids → Contains k t → Contains (.wrap sp kids) t

mutual

/-- The tree of a pattern. -/
def patTree : Pat → Tree
  | .wildcard sp => .node sp []
  | .bind sp => .node sp []
  | .lit sp => .node sp []
  | .variant sp ctor [] => .leaf sp ctor
  | .variant sp _ (f :: fs) => .node sp (patTree f :: patTrees fs)
  | .record sp _ fields => .node sp (patTrees fields)
  | .tuple sp elems => .node sp (patTrees elems)
  | .list sp elems => .node sp (patTrees elems)
  | .listRest sp head => .node sp (patTrees head)
  | .as_ sp inner => .node sp [patTree inner]
  | .error sp => .node sp []

def patTrees : List Pat → List Tree
  | [] => []
  | p :: ps => patTree p :: patTrees ps

end

mutual

/-- The tree of an expression. -/
def exprTree : Expr → Tree
  | .var sp ty => .leaf sp ty
  | .lit sp .nat => .leaf sp (.prim .nat)
  | .lit sp .int => .leaf sp (.prim .int)
  | .lit sp .float => .leaf sp (.prim .float)
  | .lit sp .string => .leaf sp (.named "String" [])
  | .lit sp .bytes => .leaf sp (.prim .bytes)
  | .lit sp .bool => .leaf sp (.prim .bool)
  | .lit sp .nil => .leaf sp (.prim .nil)
  | .lit sp .rune => .leaf sp (.prim .rune)
  | .call sp callee args => .node sp (exprTree callee :: exprTrees args)
  | .cons sp ctor [] => .leaf sp ctor
  | .cons sp _ (a :: as) => .node sp (exprTree a :: exprTrees as)
  | .record sp _ fields spread => .node sp (exprTrees fields ++ optTrees spread)
  | .method sp _ receiver args => .node sp (exprTree receiver :: exprTrees args)
  | .block sp stmts value => .node sp (stmtTrees stmts ++ [exprTree value])
  | .blockNoValue sp stmts => .node sp (stmtTrees stmts)
  | .case sp scrutinee arms => .node sp (exprTree scrutinee :: armTrees arms)
  | .lambda sp body => .node sp [exprTree body]
  | .handle sp body handlers => .node sp (exprTree body :: handlerTrees handlers)
  | .resume sp arg => .node sp [exprTree arg]
  | .tuple sp elems => .node sp (exprTrees elems)
  | .list sp elems => .node sp (exprTrees elems)
  | .binop sp lhs rhs => .node sp [exprTree lhs, exprTree rhs]
  | .error sp => .node sp []

def exprTrees : List Expr → List Tree
  | [] => []
  | e :: es => exprTree e :: exprTrees es

def optTrees : Option Expr → List Tree
  | none => []
  | some e => [exprTree e]

def stmtTrees : List Stmt → List Tree
  | [] => []
  | .let_ sp p v :: ss => .wrap sp [patTree p, exprTree v] :: stmtTrees ss
  | .expr sp e :: ss => .wrap sp [exprTree e] :: stmtTrees ss

def armTrees : List Arm → List Tree
  | [] => []
  | .mk sp p g b :: as => .node sp (patTree p :: (optTrees g ++ [exprTree b])) :: armTrees as

def handlerTrees : List Handler → List Tree
  | [] => []
  | .do_ sp p b :: hs => .node sp [patTree p, exprTree b] :: handlerTrees hs
  | .op sp _ ps b :: hs => .node sp (patTrees ps ++ [exprTree b]) :: handlerTrees hs

end

mutual

/-- The bodies of the functions of a file. -/
def declTrees : Decl → List Tree
  | .function body => [exprTree body]
  | .other => []
  | .module body => fileTrees body

def fileTrees : List Decl → List Tree
  | [] => []
  | d :: ds => declTrees d ++ fileTrees ds

end

/-- The ranges of the file come from a parse. -/
def WellNested (file : List Decl) : Prop :=
  (∀ t ∈ fileTrees file, Nested t) ∧
    (fileTrees file).Pairwise (fun a b => a.span.Apart b.span)

/-- The file has this leaf, with this type. -/
def HasLeaf (file : List Decl) (sp : Span) (ty : Ty) : Prop :=
  ∃ t ∈ fileTrees file, Contains t (.leaf sp ty)

/-- The file has a piece of syntax with exactly this range. -/
def HasRange (file : List Decl) (sp : Span) : Prop :=
  ∃ t ∈ fileTrees file, ∃ u, Contains t u ∧ u.span = sp

/-- The type of the value of an expression whose type can be read off its head:
a variable's, a literal's, the result type of the function or constructor applied. -/
inductive ValueTy : Expr → Ty → Prop
  | var {sp ty} : ValueTy (.var sp ty) ty
  | lit {sp l} : ValueTy (.lit sp l) (litTy l)
  | call {sp f args ps r} : ValueTy f (.func ps r) → ValueTy (.call sp f args) r
  | cons {sp ps r args} : args ≠ [] → ValueTy (.cons sp (.func ps r) args) r
  | constant {sp ty} : ValueTy (.cons sp ty []) ty
  | method {sp ps r e args} : ValueTy (.method sp (some (.func ps r)) e args) r

end Verif.Hover.Spec
