import Verif.NameEnv.Model
/-!
# Name resolution of expressions, and the definition index of the editor support

Model of `Resolver` (`crates/tribute-front/src/resolve/resolver.rs` 252-835), on top of the scope
stack and `resolve_name` of `Verif.NameEnv.Model`, and of the definition index and the rename request
of the language server (`src/lsp/definition_index.rs`, `src/lsp/server.rs` 240-410).

Simplifications:
* a node carries its span (`SpanMap` maps the id of a node to the span of its CST node,
  `astgen/context.rs` 57-62) instead of an id;
* `Call`, `Cons`, `Record`, `MethodCall`, `Tuple`, `List` and `BinOp` are one constructor `node` with an
  optional constructor or type name and the subexpressions in the order they are visited; literals,
  `Nil` and errors are `leaf`. `Case` and `Handle` are one constructor `cases`: both visit an expression
  and then arms, each arm in a scope of its own. Variant, record, tuple and list patterns are one
  constructor `con`;
* type annotations are not modelled; of the effect annotation of a function the ability names
  (`extract_ability_name`, resolver.rs 386-417) are kept;
* local ids are unbounded and the sentinel `LocalId::UNRESOLVED` is the reference `unresolved`;
* a token `tok` says where a name is written. The code does not store it: only the specification uses it.
-/
namespace Verif.Scope

open NameEnv (Symbol Binding Env Map)

/-- `Span`, a range of byte offsets. -/
structure Span where
  lo : Nat
  hi : Nat
deriving DecidableEq, Repr

/-- `struct UnresolvedName`, ast/phases.rs 38-44: a name in the source, with the span where it is
written. -/
structure Occ where
  name : NameEnv.Name
  span : Span
deriving DecidableEq

/-- `ResolvedRef`, ast/phases.rs: what a name refers to. -/
inductive Ref where
  | loc (id : Nat) (name : Symbol)
  | unresolved (name : Symbol)
  | func (id : String)
  | ctor (id : String) (variant : Symbol)
  | typeDef (id : String)
  | module (path : List Symbol)
  | op (ability : String) (op : Symbol) (general : Bool)
  | ability (id : String)
deriving DecidableEq, Repr

/-- `struct Param`, ast/expr.rs 245-255, and `ParamDecl`: a parameter; its span covers the type
annotation (astgen/declarations.rs 185), `tok` only the name. -/
structure Param where
  span : Span
  tok : Span
  name : Symbol
  id : Option Nat
deriving DecidableEq, Repr

mutual
/-- `Pattern`, ast/pattern.rs 43-106. `short` is a field of a record pattern without a pattern of its
own, `field` one with. -/
inductive Pat (R : Type) where
  | leaf
  | bind (span : Span) (name : Symbol) (id : Option Nat)
  | con (span : Span) (head : Option R) (ps : Pats R)
  | short (span : Span) (name : Symbol)
  | field (name : Symbol) (p : Pat R)
  | listRest (span : Span) (ps : Pats R) (rest : Option (Symbol × Span)) (id : Option Nat)
  | asP (span : Span) (p : Pat R) (name : Symbol) (tok : Span) (id : Option Nat)
inductive Pats (R : Type) where
  | nil
  | cons (p : Pat R) (ps : Pats R)
end

/-- What an arm of a `case` or `handle` is, ast/expr.rs 203-240. -/
inductive Kind (R : Type) where
  | plain
  | fn (ability : R)
  | op (ability : R) (resume : Option Nat)

mutual
/-- `Expr`, ast/expr.rs 50-150. -/
inductive Expr (R : Type) where
  | var (span : Span) (r : R)
  | leaf
  | node (span : Span) (head : Option R) (kids : Exprs R)
  | block (ss : Stmts R) (value : Expr R)
  | cases (scrut : Expr R) (arms : Arms R)
  | lam (params : List Param) (body : Expr R)
  | resume (arg : Expr R) (id : Option Nat)
inductive Exprs (R : Type) where
  | nil
  | cons (e : Expr R) (es : Exprs R)
/-- `Stmt`, ast/expr.rs 153-170. -/
inductive Stmts (R : Type) where
  | nil
  | bind (p : Pat R) (value : Expr R) (ss : Stmts R)
  | expr (e : Expr R) (ss : Stmts R)
/-- `Arm` and `HandlerArm`, ast/expr.rs 173-200. A case arm and a completion arm have one pattern; only
case arms can have a guard. -/
inductive Arms (R : Type) where
  | nil
  | cons (span : Span) (kind : Kind R) (ps : Pats R) (guard : Exprs R) (body : Expr R) (rest : Arms R)
end

mutual
/-- `Decl`, ast/decl.rs. Of a declaration the name is written at `tok`; its span is the whole
declaration (astgen/declarations.rs 82, 412, 475, 549, 596). -/
inductive Decl (R : Type) where
  | func (span tok : Span) (name : Symbol) (params : List Param) (effects : List Symbol)
      (body : Expr R)
  | extern (span tok : Span) (name : Symbol) (params : List (Span × Symbol))
  | struct_ (span tok : Span) (name : Symbol) (fields : List (Span × Symbol))
  | enum (span tok : Span) (name : Symbol) (variants : List (Span × Symbol))
  | ability (span tok : Span) (name : Symbol) (ops : List (Span × Symbol))
  | use
  | mod (name : Symbol) (body : Decls R)
inductive Decls (R : Type) where
  | nil
  | cons (d : Decl R) (ds : Decls R)
end

/-! ## Resolution -/

/-- `struct Resolver`, resolver.rs 84-102, with the stack of `resume` ids and the names reported. -/
structure St where
  r : NameEnv.Resolver
  resumes : List Nat
  reported : List Occ

/-- `push_scope`, resolver.rs 120-122. -/
def St.push (s : St) : St := { s with r := s.r.pushScope }

/-- `pop_scope`, resolver.rs 125-127. -/
def St.pop (s : St) : St := { s with r := s.r.popScope }

/-- `bind_local`, resolver.rs 130-136. -/
def St.bind (s : St) (x : Symbol) : Nat × St :=
  ((s.r.bindLocal x).2, { s with r := (s.r.bindLocal x).1 })

/-- `binding_to_ref`, resolver.rs 232-250. -/
def toRef (b : Binding) (x : Symbol) : Ref :=
  match b with
  | .function id => .func id
  | .constructor id tag _ => .ctor id (tag.getD x)
  | .typeDef id => .typeDef id
  | .module path => .module path
  | .abilityOp a op g => .op a op g
  | .ability id => .ability id

/-- `UnresolvedName::name`, ast/phases.rs 58-60. -/
def last : NameEnv.Name → Symbol
  | .simple x => x
  | .qualified _ x => x

/-- `resolve_name`, resolver.rs 148-190, with the report of an unresolved name. -/
def St.name (s : St) (o : Occ) : Ref × St :=
  match s.r.resolveName o.name with
  | some (.local_ id) => (.loc id (last o.name), s)
  | some (.binding b) => (toRef b (last o.name), s)
  | none => (.unresolved (last o.name), { s with reported := s.reported ++ [o] })

/-- `resolve_name` of an optional name. -/
def St.head (s : St) : Option Occ → Option Ref × St
  | none => (none, s)
  | some o => (some (s.name o).1, (s.name o).2)

/-- `resolve_handler_ability`, resolver.rs 712-718: the placeholder `_` is not looked up. -/
def St.abilityName (s : St) (o : Occ) : Ref × St :=
  if o.name = .simple "_" then (.unresolved "_", s) else s.name o

/-- Parameters get their ids in order, resolver.rs 304-312, 556-564. -/
def bindParams : List Param → St → List Param × St
  | [], s => ([], s)
  | p :: ps, s =>
    let b := s.bind p.name
    let rest := bindParams ps b.2
    ({ p with id := some b.1 } :: rest.1, rest.2)

mutual
/-- `resolve_pattern_with_bindings`, resolver.rs 721-833. -/
def resolvePat : Pat Occ → St → Pat Ref × St
  | .leaf, s => (.leaf, s)
  | .bind sp x _, s => (.bind sp x (some (s.bind x).1), (s.bind x).2)
  | .con sp h ps, s =>
    let h' := s.head h
    let ps' := resolvePats ps h'.2
    (.con sp h'.1 ps'.1, ps'.2)
  | .short sp x, s => (.field x (.bind sp x (some (s.bind x).1)), (s.bind x).2)
  | .field x p, s =>
    let p' := resolvePat p s
    (.field x p'.1, p'.2)
  | .listRest sp ps rest _, s =>
    let ps' := resolvePats ps s
    match rest with
    | some (x, tok) =>
      if x ≠ "_" then
        (.listRest sp ps'.1 (some (x, tok)) (some (ps'.2.bind x).1), (ps'.2.bind x).2)
      else (.listRest sp ps'.1 (some (x, tok)) none, ps'.2)
    | none => (.listRest sp ps'.1 none none, ps'.2)
  | .asP sp p x tok _, s =>
    let p' := resolvePat p s
    (.asP sp p'.1 x tok (some (p'.2.bind x).1), (p'.2.bind x).2)
def resolvePats : Pats Occ → St → Pats Ref × St
  | .nil, s => (.nil, s)
  | .cons p ps, s =>
    let p' := resolvePat p s
    let ps' := resolvePats ps p'.2
    (.cons p'.1 ps'.1, ps'.2)
end

mutual
/-- `resolve_expr`, resolver.rs 484-602. -/
def resolveExpr : Expr Occ → St → Expr Ref × St
  | .var sp o, s => (.var sp (s.name o).1, (s.name o).2)
  | .leaf, s => (.leaf, s)
  | .node sp h kids, s =>
    let h' := s.head h
    let k := resolveExprs kids h'.2
    (.node sp h'.1 k.1, k.2)
  | .block ss v, s =>
    let ss' := resolveStmts ss s.push
    let v' := resolveExpr v ss'.2
    (.block ss'.1 v'.1, v'.2.pop)
  | .cases e arms, s =>
    let e' := resolveExpr e s
    let a := resolveArms arms e'.2
    (.cases e'.1 a.1, a.2)
  | .lam ps b, s =>
    let ps' := bindParams ps s.push
    let b' := resolveExpr b ps'.2
    (.lam ps'.1 b'.1, b'.2.pop)
  | .resume e _, s =>
    let e' := resolveExpr e s
    (.resume e'.1 e'.2.resumes.head?, e'.2)
def resolveExprs : Exprs Occ → St → Exprs Ref × St
  | .nil, s => (.nil, s)
  | .cons e es, s =>
    let e' := resolveExpr e s
    let es' := resolveExprs es e'.2
    (.cons e'.1 es'.1, es'.2)
/-- `resolve_stmt`, resolver.rs 605-627: the value before the pattern. -/
def resolveStmts : Stmts Occ → St → Stmts Ref × St
  | .nil, s => (.nil, s)
  | .bind p v ss, s =>
    let v' := resolveExpr v s
    let p' := resolvePat p v'.2
    let ss' := resolveStmts ss p'.2
    (.bind p'.1 v'.1 ss'.1, ss'.2)
  | .expr e ss, s =>
    let e' := resolveExpr e s
    let ss' := resolveStmts ss e'.2
    (.expr e'.1 ss'.1, ss'.2)
/-- `resolve_arm` and `resolve_handler_arm`, resolver.rs 630-708. -/
def resolveArms : Arms Occ → St → Arms Ref × St
  | .nil, s => (.nil, s)
  | .cons sp k ps g b rest, s =>
    match k with
    | .plain =>
      let ps' := resolvePats ps s.push
      let g' := resolveExprs g ps'.2
      let b' := resolveExpr b g'.2
      let rest' := resolveArms rest b'.2.pop
      (.cons sp .plain ps'.1 g'.1 b'.1 rest'.1, rest'.2)
    | .fn a =>
      let a' := s.push.abilityName a
      let ps' := resolvePats ps a'.2
      let g' := resolveExprs g ps'.2
      let b' := resolveExpr b g'.2
      let rest' := resolveArms rest b'.2.pop
      (.cons sp (.fn a'.1) ps'.1 g'.1 b'.1 rest'.1, rest'.2)
    | .op a _ =>
      let a' := s.push.abilityName a
      let ps' := resolvePats ps a'.2
      let id := ps'.2.r.nextId
      let s1 : St := { ps'.2 with
        r := { ps'.2.r with nextId := id + 1 }, resumes := id :: ps'.2.resumes }
      let g' := resolveExprs g s1
      let b' := resolveExpr b g'.2
      let s2 : St := { b'.2 with resumes := b'.2.resumes.tail }
      let rest' := resolveArms rest s2.pop
      (.cons sp (.op a'.1 (some id)) ps'.1 g'.1 b'.1 rest'.1, rest'.2)
end

/-- Only operations are taken, resolver.rs 369. -/
def opOnly : Option Binding → Option Binding
  | some (.abilityOp ab op g) => some (.abilityOp ab op g)
  | _ => none

/-- `inject_ability_operations`, resolver.rs 365-384: for each ability of the annotation, in order, its
operations that no earlier one has. -/
def effectOps (env : Env) (effects : List Symbol) : Map Binding := fun x =>
  effects.findSome? fun a => opOnly (env.namespaces a x)

mutual
/-- `resolve_decl`, resolver.rs 269-350. -/
def resolveDecl : Decl Occ → St → Decl Ref × St
  | .func sp tok x ps eff b, s =>
    let ps' := bindParams ps s.push
    let s1 : St := { ps'.2 with r := { ps'.2.r with effectOps := effectOps ps'.2.r.env eff } }
    let b' := resolveExpr b s1
    let s2 : St := { b'.2 with r := { b'.2.r with effectOps := .empty } }
    (.func sp tok x ps'.1 eff b'.1, s2.pop)
  | .extern sp tok x ps, s => (.extern sp tok x ps, s)
  | .struct_ sp tok x fs, s => (.struct_ sp tok x fs, s)
  | .enum sp tok x vs, s => (.enum sp tok x vs, s)
  | .ability sp tok x os, s => (.ability sp tok x os, s)
  | .use, s => (.use, s)
  | .mod x ds, s =>
    let ds' := resolveDecls ds { s with r := { s.r with modulePath := s.r.modulePath ++ [x] } }
    (.mod x ds'.1, { ds'.2 with r := { ds'.2.r with modulePath := ds'.2.r.modulePath.dropLast } })
def resolveDecls : Decls Occ → St → Decls Ref × St
  | .nil, s => (.nil, s)
  | .cons d ds, s =>
    let d' := resolveDecl d s
    let ds' := resolveDecls ds d'.2
    (.cons d'.1 ds'.1, ds'.2)
end

/-- `Resolver::new`, resolver.rs 106-117. -/
def St.start (env : Env) : St := ⟨.new env, [], []⟩

/-- `resolve_module`, resolver.rs 253-266, with the names reported. -/
def resolveModule (env : Env) (m : Decls Occ) : Decls Ref × List Occ :=
  let r := resolveDecls m (.start env)
  (r.1, r.2.reported)

/-! ## The definition index -/

/-- `enum DefinitionKind`, definition_index.rs 26-56. -/
inductive DefKind where
  | function
  | struct_
  | enum
  | variant (owner : Symbol)
  | ability
  | op (owner : Symbol)
  | local_
  | parameter
  | field (owner : Symbol)
deriving DecidableEq, Repr

/-- `struct AstDefinitionEntry`, definition_index.rs 58-70. -/
structure DefEntry where
  span : Span
  name : Symbol
  kind : DefKind
  id : Option Nat
deriving DecidableEq, Repr

/-- `enum ResolvedTarget`, definition_index.rs 84-104. The id of a local reference is `none` for the
sentinel `LocalId::UNRESOLVED`. -/
inductive Target where
  | loc (id : Option Nat) (name : Symbol)
  | func (name : Symbol)
  | ctor (type variant : Symbol)
  | type (name : Symbol)
  | ability (name : Symbol)
  | op (ability op : Symbol)
  | unresolved (name : Symbol)
  | field (owner name : Symbol)
  | other (name : Symbol)
deriving DecidableEq, Repr

/-- `struct AstReferenceEntry`, definition_index.rs 73-80. -/
structure RefEntry where
  span : Span
  target : Target
deriving DecidableEq, Repr

/-- `ResolvedTarget::name`, definition_index.rs 108-120. -/
def Target.name : Target → Symbol
  | .loc _ x | .func x | .ctor _ x | .type x | .ability x | .op _ x | .unresolved x | .field _ x
  | .other x => x

/-- `ResolvedTarget::local_id`, definition_index.rs 123-135. -/
def Target.id? : Target → Option (Option Nat)
  | .loc i _ => some i
  | _ => none

/-- `resolve_resolved_ref`, definition_index.rs 789-817. `short` gives the last segment of a qualified
name (`FuncDefId::name` and the like). -/
def target (short : String → Symbol) : Ref → Target
  | .loc i x => .loc (some i) x
  | .unresolved x => .loc none x
  | .func id => .func (short id)
  | .ctor id v => .ctor (short id) v
  | .typeDef id => .type (short id)
  | .module _ => .other "module"
  | .op a o _ => .op (short a) o
  | .ability id => .type (short id)

/-- The lists of `DefinitionCollector`, definition_index.rs 448-453. -/
structure Index where
  defs : List DefEntry
  refs : List RefEntry

instance : Append Index := ⟨fun a b => ⟨a.defs ++ b.defs, a.refs ++ b.refs⟩⟩

def Index.empty : Index := ⟨[], []⟩

/-- `add_definition`, definition_index.rs 465-480. -/
def define (sp : Span) (x : Symbol) (k : DefKind) (id : Option Nat) : Index := ⟨[⟨sp, x, k, id⟩], []⟩

/-- `add_reference`, definition_index.rs 482-489. -/
def refer (short : String → Symbol) (sp : Span) (r : Ref) : Index := ⟨[], [⟨sp, target short r⟩]⟩

def referHead (short : String → Symbol) (sp : Span) : Option Ref → Index
  | none => .empty
  | some r => refer short sp r

/-- `collect_param`, definition_index.rs 537-544, and lambda parameters, 629-638. -/
def collectParams : List Param → Index
  | [] => .empty
  | p :: ps => define p.span p.name .parameter p.id ++ collectParams ps

mutual
/-- `collect_pattern`, definition_index.rs 695-754. -/
def collectPat (short : String → Symbol) : Pat Ref → Index
  | .leaf => .empty
  | .bind sp x id => define sp x .local_ id
  | .con sp h ps => referHead short sp h ++ collectPats short ps
  | .short sp x => define sp x .local_ none
  | .field _ p => collectPat short p
  | .listRest sp ps rest id =>
    collectPats short ps ++ (match rest with
      | some (x, _) => define sp x .local_ id
      | none => .empty)
  | .asP sp p x _ id => collectPat short p ++ define sp x .local_ id
def collectPats (short : String → Symbol) : Pats Ref → Index
  | .nil => .empty
  | .cons p ps => collectPat short p ++ collectPats short ps
end

mutual
/-- `collect_expr`, definition_index.rs 590-681. -/
def collectExpr (short : String → Symbol) : Expr Ref → Index
  | .var sp r => refer short sp r
  | .leaf => .empty
  | .node sp h kids => referHead short sp h ++ collectExprs short kids
  | .block ss v => collectStmts short ss ++ collectExpr short v
  | .cases e arms => collectExpr short e ++ collectArms short arms
  | .lam ps b => collectParams ps ++ collectExpr short b
  | .resume e _ => collectExpr short e
def collectExprs (short : String → Symbol) : Exprs Ref → Index
  | .nil => .empty
  | .cons e es => collectExpr short e ++ collectExprs short es
/-- `collect_stmt`, definition_index.rs 683-693. -/
def collectStmts (short : String → Symbol) : Stmts Ref → Index
  | .nil => .empty
  | .bind p v ss => collectPat short p ++ (collectExpr short v ++ collectStmts short ss)
  | .expr e ss => collectExpr short e ++ collectStmts short ss
/-- `collect_arm` and `collect_handler`, definition_index.rs 756-783. -/
def collectArms (short : String → Symbol) : Arms Ref → Index
  | .nil => .empty
  | .cons sp k ps g b rest =>
    (match k with
      | .plain => .empty
      | .fn a => refer short sp a
      | .op a _ => refer short sp a) ++
    (collectPats short ps ++ (collectExprs short g ++ (collectExpr short b ++ collectArms short rest)))
end

/-- The members of a struct, an enum or an ability, and the parameters of an extern function. -/
def collectMembers (k : DefKind) : List (Span × Symbol) → Index
  | [] => .empty
  | (sp, x) :: ms => define sp x k none ++ collectMembers k ms

mutual
/-- `collect_decl`, definition_index.rs 497-588. -/
def collectDecl (short : String → Symbol) : Decl Ref → Index
  | .func sp _ x ps _ b => define sp x .function none ++ (collectParams ps ++ collectExpr short b)
  | .extern sp _ x ps => define sp x .function none ++ collectMembers .parameter ps
  | .struct_ sp _ x fs => define sp x .struct_ none ++ collectMembers (.field x) fs
  | .enum sp _ x vs => define sp x .enum none ++ collectMembers (.variant x) vs
  | .ability sp _ x os => define sp x .ability none ++ collectMembers (.op x) os
  | .use => .empty
  | .mod _ ds => collectDecls short ds
def collectDecls (short : String → Symbol) : Decls Ref → Index
  | .nil => .empty
  | .cons d ds => collectDecl short d ++ collectDecls short ds
end

/-- The key by which entries are sorted, definition_index.rs 166-167. -/
def Span.le (a b : Span) : Bool := a.lo < b.lo || (a.lo == b.lo && a.hi ≤ b.hi)

def insertBy {α : Type} (le : α → α → Bool) (a : α) : List α → List α
  | [] => [a]
  | b :: bs => if le a b then a :: b :: bs else b :: insertBy le a bs

/-- `sort_by_key`: a stable sort. -/
def sortBy {α : Type} (le : α → α → Bool) : List α → List α
  | [] => []
  | a :: as => insertBy le a (sortBy le as)

/-- `AstDefinitionIndex::build`, definition_index.rs 154-177; both sorts are stable. The map from names
to positions is replaced by search in `defs`. -/
def build (short : String → Symbol) (m : Decls Ref) : Index :=
  let i := collectDecls short m
  ⟨sortBy (fun a b => a.span.le b.span) i.defs, sortBy (fun a b => a.span.le b.span) i.refs⟩

/-- `start <= offset && offset < end`. -/
def Span.has (a : Span) (off : Nat) : Bool := a.lo ≤ off && off < a.hi

/-- `min_by_key` over a list: the first of the smallest. -/
def minBy {α : Type} (key : α → Nat) : List α → Option α
  | [] => none
  | a :: as => match minBy key as with
    | none => some a
    | some b => if key a ≤ key b then some a else some b

/-- `definition_at_position`, definition_index.rs 179-188. -/
def Index.defHere (i : Index) (off : Nat) : Option DefEntry :=
  minBy (fun e => e.span.hi - e.span.lo) (i.defs.filter fun e => e.span.has off)

/-- `reference_at`, definition_index.rs 191-200. -/
def Index.refAt (i : Index) (off : Nat) : Option RefEntry :=
  minBy (fun e => e.span.hi - e.span.lo) (i.refs.filter fun e => e.span.has off)

/-- `definition_of`, definition_index.rs 218-227: the first definition of the name in the file. -/
def Index.defNamed (i : Index) (x : Symbol) : Option DefEntry := i.defs.find? fun d => d.name == x

/-- `definition_of_target`, definition_index.rs 233-280. No definition has the sentinel as its id. -/
def Index.defOf (i : Index) : Target → Option DefEntry
  | .loc id x => i.defs.find? fun d => d.name == x && id.isSome && d.id == id
  | .ctor ty v => i.defs.find? fun d => d.name == v && d.kind == .variant ty
  | .field o x => i.defs.find? fun d => d.name == x && d.kind == .field o
  | .op a o => i.defs.find? fun d => d.name == o && d.kind == .op a
  | t => i.defNamed t.name

/-- `definition_at`, definition_index.rs 205-212. -/
def Index.defAt (i : Index) (off : Nat) : Option DefEntry :=
  match i.refAt off with
  | none => none
  | some r => i.defOf r.target

/-- `references_of_target`, definition_index.rs 301-360. -/
def Index.refsOf (i : Index) : Target → List RefEntry
  | .loc id x => i.refs.filter fun r => r.target.name == x && r.target.id? == some id
  | .ctor ty v => i.refs.filter fun r => r.target == .ctor ty v
  | .field o x => i.refs.filter fun r => r.target == .field o x
  | .op a o => i.refs.filter fun r => r.target == .op a o
  | t => i.refs.filter fun r => r.target.name == t.name

/-- `target_from_definition`, definition_index.rs 390-420. -/
def targetOf (d : DefEntry) : Target :=
  match d.kind with
  | .local_ | .parameter => match d.id with
    | some id => .loc (some id) d.name
    | none => .unresolved d.name
  | .function => .func d.name
  | .struct_ | .enum => .type d.name
  | .variant o => .ctor o d.name
  | .ability => .ability d.name
  | .op o => .op o d.name
  | .field o => .field o d.name

/-- `can_rename`, definition_index.rs 426-444, without the span. -/
def Index.canRename (i : Index) (off : Nat) : Option DefEntry :=
  match i.defAt off with
  | some d => some d
  | none => i.defHere off

/-- `KEYWORDS`, completion_index.rs 56-59. -/
def keywords : List String :=
  ["fn", "let", "case", "struct", "enum", "ability", "const", "pub", "use", "mod", "if", "handle",
    "as", "True", "False", "Nil"]

def isUpper (c : Char) : Bool := 65 ≤ c.toNat && c.toNat ≤ 90
def isLower (c : Char) : Bool := 97 ≤ c.toNat && c.toNat ≤ 122
def isDigit (c : Char) : Bool := 48 ≤ c.toNat && c.toNat ≤ 57

/-- `validate_identifier`, definition_index.rs 872-910. -/
def validIdentifier (x : Symbol) (k : DefKind) : Bool :=
  match x.toList with
  | [] => false
  | c :: cs =>
    (match k with
      | .struct_ | .enum | .variant _ | .ability => isUpper c
      | _ => isLower c || c == '_') &&
    ((c :: cs).all fun c => isUpper c || isLower c || isDigit c || c == '_') &&
    !keywords.contains x

/-- An edit of the text: what to replace, and by what. -/
structure Edit where
  span : Span
  text : Symbol
deriving DecidableEq, Repr

/-- `rename`, server.rs 353-411: the edits of a rename request. -/
def Index.rename (i : Index) (off : Nat) (y : Symbol) : Option (List Edit) :=
  match i.canRename off with
  | none => none
  | some d =>
    if validIdentifier y d.kind then
      some (⟨d.span, y⟩ :: (i.refsOf (targetOf d)).map fun r => ⟨r.span, y⟩)
    else none

end Verif.Scope
