import Verif.Mono.Model

/-!
# Specialising generic functions

Models `monomorphize_functions` of `crates/tribute-front/src/monomorphize/mod.rs` up to its second
stage (generic `struct` and `enum` declarations, `mod.rs` 118-153, are not modelled), with the
traversals of `collect.rs`, `specialize.rs` and `rewrite.rs` for functions.

Simplifications:

* Symbols are lists of characters, local ids, constructors, abilities, field names and literals
  are numbers.  Type annotations, display names of locals and visibility are left out.
* Hash maps and hash sets are lists without repetitions; the order in which the specialisations of
  one round are appended (sorted by name in the program) is the order in which they are found.
* Of the metadata tables only `node_types` and `call_callee_types` are modelled; the others are
  cloned in the same way (`mod.rs` 216-303).
* A panic while types are substituted is found by looking at all types of the copied body first
  (`typesE`), so that substitution itself is total.
-/

namespace Verif.Instances
open Verif.Types Verif.Mono

abbrev Name := List Char

/-- `NodeId`, `ast/node_id.rs` 20-60: a position in the source and the variant of a
specialisation. -/
structure NodeId where
  raw : Nat
  variant : Option Nat
  deriving DecidableEq

/-- `NodeId::with_variant`, `ast/node_id.rs` 54-60. -/
def NodeId.withVariant (n : NodeId) (v : Nat) : NodeId := ⟨n.raw, some v⟩

/-- `ResolvedRef`, `ast/phases.rs`: a local variable, a function, a constructor, an operation of an
ability, anything else. -/
inductive Res
  | loc (l : Nat)
  | func (f : Name)
  | ctor (c : Nat)
  | op (a o : Nat)
  | other
  deriving DecidableEq

/-- `TypedRef`, `ast/phases.rs`. -/
structure TRef where
  res : Res
  ty : Ty
  deriving DecidableEq

mutual
/-- `Pattern` and `PatternKind`, `ast/pattern.rs` 14-96. -/
inductive Pat
  | wild (id : NodeId)
  | bind (id : NodeId) (l : Nat)
  | lit (id : NodeId) (v : Nat)
  | variant (id : NodeId) (r : TRef) (ps : List Pat)
  | record (id : NodeId) (r : Option TRef) (fs : List FPat)
  | tuple (id : NodeId) (ps : List Pat)
  | list (id : NodeId) (ps : List Pat)
  | listRest (id : NodeId) (ps : List Pat) (rest : Option Nat)
  | as (id : NodeId) (p : Pat) (l : Nat)
  | err (id : NodeId)
/-- `FieldPattern`, `ast/pattern.rs` 98-111, with and without a pattern of its own.  A field
without one binds a local variable. -/
inductive FPat
  | short (id : NodeId) (name l : Nat)
  | full (id : NodeId) (name : Nat) (p : Pat)
end

/-- `HandlerKind`, `ast/expr.rs` 176-200. -/
inductive HKind
  | done (p : Pat)
  | fn (r : TRef) (o : Nat) (ps : List Pat)
  | op (r : TRef) (o : Nat) (ps : List Pat) (resume : Option Nat)

mutual
/-- `Expr` and `ExprKind`, `ast/expr.rs` 50-130.  `lit` stands for all literals; the fields of a
record are the list of their names and the list of their expressions. -/
inductive Expr
  | var (id : NodeId) (r : TRef)
  | lit (id : NodeId) (v : Nat)
  | call (id : NodeId) (f : Expr) (as : List Expr)
  | cons (id : NodeId) (r : TRef) (as : List Expr)
  | record (id : NodeId) (r : TRef) (names : List Nat) (vals : List Expr) (spread : Option Expr)
  | method (id : NodeId) (recv : Expr) (m : Nat) (as : List Expr)
  | block (id : NodeId) (ss : List Stmt) (v : Expr)
  | case (id : NodeId) (s : Expr) (as : List Arm)
  | lam (id : NodeId) (ps : List Nat) (b : Expr)
  | handle (id : NodeId) (b : Expr) (hs : List HArm)
  | resume (id : NodeId) (l : Option Nat) (a : Expr)
  | tuple (id : NodeId) (as : List Expr)
  | list (id : NodeId) (as : List Expr)
  | binop (id : NodeId) (isAnd : Bool) (l r : Expr)
  | err (id : NodeId)
/-- `Stmt`, `ast/expr.rs` 132-149. -/
inductive Stmt
  | bind (id : NodeId) (p : Pat) (v : Expr)
  | expr (id : NodeId) (e : Expr)
/-- `Arm`, `ast/expr.rs` 151-164. -/
inductive Arm
  | mk (id : NodeId) (p : Pat) (guard : Option Expr) (b : Expr)
/-- `HandlerArm`, `ast/expr.rs` 166-174. -/
inductive HArm
  | mk (id : NodeId) (k : HKind) (b : Expr)
end

/-- `Decl`, `ast/decl.rs`: a function, an external function, a module, anything else. -/
inductive Decl
  | func (id : NodeId) (name : Name) (ps : List Nat) (b : Expr)
  | ext (name : Name)
  | mod (name : Name) (ds : List Decl)
  | other

/-- `qualified_symbol` and `push_prefix`, `tribute-front/src/lib.rs` 38-70 (both join with
`::`). -/
def qualify (pre n : Name) : Name := if pre = [] then n else pre ++ "::".toList ++ n

/-- A declared function. -/
structure Fun where
  id : NodeId
  ps : List Nat
  body : Expr

mutual
/-- `collect_func_decls_inner`, `specialize.rs` 585-605: the functions with their qualified
names. -/
def funs (pre : Name) : Decl → List (Name × Fun)
  | .func id n ps b => [(qualify pre n, ⟨id, ps, b⟩)]
  | .ext _ => []
  | .mod n ds => funsL (qualify pre n) ds
  | .other => []
def funsL (pre : Name) : List Decl → List (Name × Fun)
  | [] => []
  | d :: ds => funs pre d ++ funsL pre ds
end

mutual
/-- `collect_extern_function_names_inner`, `specialize.rs` 614-636. -/
def exts (pre : Name) : Decl → List Name
  | .func .. => []
  | .ext n => [qualify pre n]
  | .mod n ds => extsL (qualify pre n) ds
  | .other => []
def extsL (pre : Name) : List Decl → List Name
  | [] => []
  | d :: ds => exts pre d ++ extsL pre ds
end

/-- An instance: a function and the types it is used at. -/
abbrev Inst := Name × List Ty

abbrev Schemes := List (Name × Scheme.PolyTy)
abbrev Table := List (NodeId × Ty)

/-! ## Collecting instances -/

/-- `try_record`, `collect.rs` 148-171. -/
def tryRecord (ss : Schemes) (tab : Table) (id : NodeId) (r : TRef) : List Inst :=
  match r.res with
  | .func f => match ss.lookup f with
    | none => []
    | some s => match record s ((tab.lookup id).getD r.ty) with
      | none => []
      | some ts => [(f, ts)]
  | _ => []

section
variable (ss : Schemes) (tab : Table)
mutual
/-- `visit_expr`, `collect.rs` 192-260. -/
def visitE : Expr → List Inst
  | .var id r => tryRecord ss tab id r
  | .lit .. => []
  | .call _ f as => visitE f ++ visitEs as
  | .cons _ _ as => visitEs as
  | .record _ _ _ vs sp => visitEs vs ++ visitO sp
  | .method _ r _ as => visitE r ++ visitEs as
  | .block _ stmts v => visitSs stmts ++ visitE v
  | .case _ s as => visitE s ++ visitAs as
  | .lam _ _ b => visitE b
  | .handle _ b hs => visitE b ++ visitHs hs
  | .resume _ _ a => visitE a
  | .tuple _ as => visitEs as
  | .list _ as => visitEs as
  | .binop _ _ l r => visitE l ++ visitE r
  | .err _ => []
def visitEs : List Expr → List Inst
  | [] => []
  | e :: es => visitE e ++ visitEs es
def visitO : Option Expr → List Inst
  | none => []
  | some e => visitE e
/-- `visit_stmt`, `collect.rs` 262-268. -/
def visitS : Stmt → List Inst
  | .bind _ _ v => visitE v
  | .expr _ e => visitE e
def visitSs : List Stmt → List Inst
  | [] => []
  | s :: rest => visitS s ++ visitSs rest
def visitA : Arm → List Inst
  | .mk _ _ g b => visitO g ++ visitE b
def visitAs : List Arm → List Inst
  | [] => []
  | a :: as => visitA a ++ visitAs as
def visitH : HArm → List Inst
  | .mk _ _ b => visitE b
def visitHs : List HArm → List Inst
  | [] => []
  | h :: hs => visitH h ++ visitHs hs
end

mutual
/-- `visit_decl`, `collect.rs` 179-190. -/
def visitD : Decl → List Inst
  | .func _ _ _ b => visitE ss tab b
  | .ext _ => []
  | .mod _ ds => visitDs ds
  | .other => []
/-- `visit_module`, `collect.rs` 173-177. -/
def visitDs : List Decl → List Inst
  | [] => []
  | d :: ds => visitD d ++ visitDs ds
end
end

/-! ## Copying a function -/

/-- `subst_type`, `specialize.rs` 681-691, where it does not panic. -/
def substT (ts : List Ty) (t : Ty) : Ty :=
  match Scheme.substB ts t with
  | .ok t' => t'
  | .error _ => t

/-- `subst_typed_ref`, `specialize.rs` 693-702. -/
def substR (ts : List Ty) (r : TRef) : TRef := ⟨r.res, substT ts r.ty⟩

section
variable (ts : List Ty) (v : Nat)
mutual
/-- `substitute_pattern`, `specialize.rs` 894-957. -/
def substP : Pat → Pat
  | .wild id => .wild (id.withVariant v)
  | .bind id l => .bind (id.withVariant v) l
  | .lit id x => .lit (id.withVariant v) x
  | .variant id r ps => .variant (id.withVariant v) (substR ts r) (substPs ps)
  | .record id r fs => .record (id.withVariant v) (r.map (substR ts)) (substFs fs)
  | .tuple id ps => .tuple (id.withVariant v) (substPs ps)
  | .list id ps => .list (id.withVariant v) (substPs ps)
  | .listRest id ps l => .listRest (id.withVariant v) (substPs ps) l
  | .as id p l => .as (id.withVariant v) (substP p) l
  | .err id => .err (id.withVariant v)
def substPs : List Pat → List Pat
  | [] => []
  | p :: ps => substP p :: substPs ps
def substF : FPat → FPat
  | .short id n l => .short (id.withVariant v) n l
  | .full id n p => .full (id.withVariant v) n (substP p)
def substFs : List FPat → List FPat
  | [] => []
  | f :: fs => substF f :: substFs fs
end

/-- The kinds of `substitute_handler_arm`, `specialize.rs` 850-885. -/
def substK : HKind → HKind
  | .done p => .done (substP ts v p)
  | .fn r o ps => .fn (substR ts r) o (substPs ts v ps)
  | .op r o ps l => .op (substR ts r) o (substPs ts v ps) l

mutual
/-- `substitute_expr`, `specialize.rs` 704-799. -/
def substE : Expr → Expr
  | .var id r => .var (id.withVariant v) (substR ts r)
  | .lit id x => .lit (id.withVariant v) x
  | .call id f as => .call (id.withVariant v) (substE f) (substEs as)
  | .cons id r as => .cons (id.withVariant v) (substR ts r) (substEs as)
  | .record id r ns vs sp => .record (id.withVariant v) (substR ts r) ns (substEs vs) (substO sp)
  | .method id r m as => .method (id.withVariant v) (substE r) m (substEs as)
  | .block id ss e => .block (id.withVariant v) (substSs ss) (substE e)
  | .case id s as => .case (id.withVariant v) (substE s) (substAs as)
  | .lam id ps b => .lam (id.withVariant v) ps (substE b)
  | .handle id b hs => .handle (id.withVariant v) (substE b) (substHs hs)
  | .resume id l a => .resume (id.withVariant v) l (substE a)
  | .tuple id as => .tuple (id.withVariant v) (substEs as)
  | .list id as => .list (id.withVariant v) (substEs as)
  | .binop id b l r => .binop (id.withVariant v) b (substE l) (substE r)
  | .err id => .err (id.withVariant v)
def substEs : List Expr → List Expr
  | [] => []
  | e :: es => substE e :: substEs es
def substO : Option Expr → Option Expr
  | none => none
  | some e => some (substE e)
/-- `substitute_stmt`, `specialize.rs` 801-823. -/
def substS : Stmt → Stmt
  | .bind id p e => .bind (id.withVariant v) (substP ts v p) (substE e)
  | .expr id e => .expr (id.withVariant v) (substE e)
def substSs : List Stmt → List Stmt
  | [] => []
  | s :: ss => substS s :: substSs ss
/-- `substitute_arm`, `specialize.rs` 825-839. -/
def substA : Arm → Arm
  | .mk id p g b => .mk (id.withVariant v) (substP ts v p) (substO g) (substE b)
def substAs : List Arm → List Arm
  | [] => []
  | a :: as => substA a :: substAs as
/-- `substitute_handler_arm`, `specialize.rs` 841-892. -/
def substH : HArm → HArm
  | .mk id k b => .mk (id.withVariant v) (substK ts v k) (substE b)
def substHs : List HArm → List HArm
  | [] => []
  | h :: hs => substH h :: substHs hs
end
end

mutual
/-- The types that `substitute_pattern` substitutes. -/
def typesP : Pat → List Ty
  | .variant _ r ps => r.ty :: typesPs ps
  | .record _ r fs => (r.map TRef.ty).toList ++ typesFs fs
  | .tuple _ ps => typesPs ps
  | .list _ ps => typesPs ps
  | .listRest _ ps _ => typesPs ps
  | .as _ p _ => typesP p
  | .wild _ => []
  | .bind _ _ => []
  | .lit _ _ => []
  | .err _ => []
def typesPs : List Pat → List Ty
  | [] => []
  | p :: ps => typesP p ++ typesPs ps
def typesF : FPat → List Ty
  | .short .. => []
  | .full _ _ p => typesP p
def typesFs : List FPat → List Ty
  | [] => []
  | f :: fs => typesF f ++ typesFs fs
end

/-- The types that the kinds of `substitute_handler_arm` substitute. -/
def typesK : HKind → List Ty
  | .done p => typesP p
  | .fn r _ ps => r.ty :: typesPs ps
  | .op r _ ps _ => r.ty :: typesPs ps

mutual
/-- The types that `substitute_expr` substitutes. -/
def typesE : Expr → List Ty
  | .var _ r => [r.ty]
  | .lit .. => []
  | .call _ f as => typesE f ++ typesEs as
  | .cons _ r as => r.ty :: typesEs as
  | .record _ r _ vs sp => r.ty :: (typesEs vs ++ typesO sp)
  | .method _ r _ as => typesE r ++ typesEs as
  | .block _ ss e => typesSs ss ++ typesE e
  | .case _ s as => typesE s ++ typesAs as
  | .lam _ _ b => typesE b
  | .handle _ b hs => typesE b ++ typesHs hs
  | .resume _ _ a => typesE a
  | .tuple _ as => typesEs as
  | .list _ as => typesEs as
  | .binop _ _ l r => typesE l ++ typesE r
  | .err _ => []
def typesEs : List Expr → List Ty
  | [] => []
  | e :: es => typesE e ++ typesEs es
def typesO : Option Expr → List Ty
  | none => []
  | some e => typesE e
def typesS : Stmt → List Ty
  | .bind _ p e => typesP p ++ typesE e
  | .expr _ e => typesE e
def typesSs : List Stmt → List Ty
  | [] => []
  | s :: ss => typesS s ++ typesSs ss
def typesA : Arm → List Ty
  | .mk _ p g b => typesP p ++ (typesO g ++ typesE b)
def typesAs : List Arm → List Ty
  | [] => []
  | a :: as => typesA a ++ typesAs as
def typesH : HArm → List Ty
  | .mk _ k b => typesK k ++ typesE b
def typesHs : List HArm → List Ty
  | [] => []
  | h :: hs => typesH h ++ typesHs hs
end

mutual
/-- `semantic_node_ids`, its function `pattern`, `specialize.rs` 112-140. -/
def idsP : Pat → List NodeId
  | .wild id => [id]
  | .bind id _ => [id]
  | .lit id _ => [id]
  | .variant id _ ps => id :: idsPs ps
  | .record id _ fs => id :: idsFs fs
  | .tuple id ps => id :: idsPs ps
  | .list id ps => id :: idsPs ps
  | .listRest id ps _ => id :: idsPs ps
  | .as id p _ => id :: idsP p
  | .err id => [id]
def idsPs : List Pat → List NodeId
  | [] => []
  | p :: ps => idsP p ++ idsPs ps
def idsF : FPat → List NodeId
  | .short id _ _ => [id]
  | .full id _ p => id :: idsP p
def idsFs : List FPat → List NodeId
  | [] => []
  | f :: fs => idsF f ++ idsFs fs
end

/-- The patterns of a handler arm, `specialize.rs` 186-195. -/
def idsK : HKind → List NodeId
  | .done p => idsP p
  | .fn _ _ ps => idsPs ps
  | .op _ _ ps _ => idsPs ps

mutual
/-- `semantic_node_ids`, its function `expr`, `specialize.rs` 142-236. -/
def idsE : Expr → List NodeId
  | .var id _ => [id]
  | .lit id _ => [id]
  | .call id f as => id :: (idsE f ++ idsEs as)
  | .cons id _ as => id :: idsEs as
  | .record id _ _ vs sp => id :: (idsEs vs ++ idsO sp)
  | .method id r _ as => id :: (idsE r ++ idsEs as)
  | .block id ss e => id :: (idsSs ss ++ idsE e)
  | .case id s as => id :: (idsE s ++ idsAs as)
  | .lam id _ b => id :: idsE b
  | .handle id b hs => id :: (idsE b ++ idsHs hs)
  | .resume id _ a => id :: idsE a
  | .tuple id as => id :: idsEs as
  | .list id as => id :: idsEs as
  | .binop id _ l r => id :: (idsE l ++ idsE r)
  | .err id => [id]
def idsEs : List Expr → List NodeId
  | [] => []
  | e :: es => idsE e ++ idsEs es
def idsO : Option Expr → List NodeId
  | none => []
  | some e => idsE e
def idsS : Stmt → List NodeId
  | .bind id p e => id :: (idsP p ++ idsE e)
  | .expr id e => id :: idsE e
def idsSs : List Stmt → List NodeId
  | [] => []
  | s :: ss => idsS s ++ idsSs ss
def idsA : Arm → List NodeId
  | .mk id p g b => id :: (idsP p ++ (idsO g ++ idsE b))
def idsAs : List Arm → List NodeId
  | [] => []
  | a :: as => idsA a ++ idsAs as
def idsH : HArm → List NodeId
  | .mk id k b => id :: (idsK k ++ idsE b)
def idsHs : List HArm → List NodeId
  | [] => []
  | h :: hs => idsH h ++ idsHs hs
end

/-! ## Redirecting references -/

/-- `build_rewrite_map` and `try_rewrite_ref`, `mod.rs` 342-368 and `rewrite.rs` 75-102.  The names
of the instances are generated by `nm`; a panic there is found when the instance is made. -/
def redirectR (nm : Names) (ss : Schemes) (K : List Inst) (r : TRef) : TRef :=
  match r.res with
  | .func f => match ss.lookup f with
    | none => r
    | some s => match extract s r.ty with
      | none => r
      | some ts => if (f, ts) ∈ K then
          match mangle nm f ts with
          | none => r
          | some n => ⟨.func n, r.ty⟩
        else r
  | _ => r

section
variable (nm : Names) (ss : Schemes) (K : List Inst)
mutual
/-- `rewrite_expr`, `rewrite.rs` 128-205.  Constructors, record types and patterns are left as they
are. -/
def rewE : Expr → Expr
  | .var id r => .var id (redirectR nm ss K r)
  | .lit id x => .lit id x
  | .call id f as => .call id (rewE f) (rewEs as)
  | .cons id r as => .cons id r (rewEs as)
  | .record id r ns vs sp => .record id r ns (rewEs vs) (rewO sp)
  | .method id r m as => .method id (rewE r) m (rewEs as)
  | .block id ss e => .block id (rewSs ss) (rewE e)
  | .case id s as => .case id (rewE s) (rewAs as)
  | .lam id ps b => .lam id ps (rewE b)
  | .handle id b hs => .handle id (rewE b) (rewHs hs)
  | .resume id l a => .resume id l (rewE a)
  | .tuple id as => .tuple id (rewEs as)
  | .list id as => .list id (rewEs as)
  | .binop id b l r => .binop id b (rewE l) (rewE r)
  | .err id => .err id
def rewEs : List Expr → List Expr
  | [] => []
  | e :: es => rewE e :: rewEs es
def rewO : Option Expr → Option Expr
  | none => none
  | some e => some (rewE e)
/-- `rewrite_stmt`, `rewrite.rs` 207-224. -/
def rewS : Stmt → Stmt
  | .bind id p e => .bind id p (rewE e)
  | .expr id e => .expr id (rewE e)
def rewSs : List Stmt → List Stmt
  | [] => []
  | s :: ss => rewS s :: rewSs ss
/-- `rewrite_arm`, `rewrite.rs` 226-233. -/
def rewA : Arm → Arm
  | .mk id p g b => .mk id p (rewO g) (rewE b)
def rewAs : List Arm → List Arm
  | [] => []
  | a :: as => rewA a :: rewAs as
/-- `rewrite_handler_arm`, `rewrite.rs` 235-241. -/
def rewH : HArm → HArm
  | .mk id k b => .mk id k (rewE b)
def rewHs : List HArm → List HArm
  | [] => []
  | h :: hs => rewH h :: rewHs hs
end

mutual
/-- `rewrite_decl`, `rewrite.rs` 106-126. -/
def rewD : Decl → Decl
  | .func id n ps b => .func id n ps (rewE nm ss K b)
  | .ext n => .ext n
  | .mod n ds => .mod n (rewDs ds)
  | .other => .other
/-- `rewrite_module` and `rewrite_decls`, `rewrite.rs` 26-55. -/
def rewDs : List Decl → List Decl
  | [] => []
  | d :: ds => rewD d :: rewDs ds
end
end

/-! ## The rounds -/

/-- What the rounds work on: the declarations, the instances known so far, the types of the
generated functions and the two metadata tables. -/
structure State where
  decls : List Decl
  known : List Inst
  types : Schemes
  nodeTypes : Table
  calleeTypes : Table

/-- `clone_type_table`, `mod.rs` 312-328. -/
def cloneTable (ts : List Ty) (v : Nat) (origins : List NodeId) (tab : Table) : Table :=
  (origins.filterMap fun id => (tab.lookup id).map fun t => (id.withVariant v, substT ts t)) ++ tab

/-- What `clone_type_table` panics on. -/
def tableOk (ts : List Ty) (origins : List NodeId) (tab : Table) : Bool :=
  origins.all fun id => match tab.lookup id with
    | none => true
    | some t => (Scheme.substB ts t).toBool

/-- The source program: schemes of the functions, names of declared types, and the hash
`type_args_variant` of lists of types, `specialize.rs` 641-653. -/
structure Env where
  nm : Names
  ss : Schemes
  hash : List Ty → Nat

/-- What one instance adds: a declaration, unless the function is external or not declared, and the
type of the new function. -/
structure New where
  decl : List Decl
  type : List (Name × Scheme.PolyTy)
  origins : List NodeId

/-- `specialize_func_decl`, `specialize.rs` 655-674. -/
def specialize (E : Env) (f : Fun) (ts : List Ty) (n : Name) : Decl :=
  .func (f.id.withVariant (E.hash ts)) n f.ps (substE ts (E.hash ts) f.body)

/-- The loop body of `generate_specializations`, `specialize.rs` 46-85.  `none` is a panic; that of
`build_rewrite_map` for a name that cannot be generated, `mod.rs` 342-368, is included. -/
def generate (E : Env) (ds : List Decl) (i : Inst) : Option New :=
  match (funsL [] ds).lookup i.1 with
  | some f => match E.ss.lookup i.1 with
    | none => some ⟨[], [], []⟩
    | some s => match mangle E.nm i.1 i.2, Scheme.substB i.2 s.body with
      | some n, .ok t =>
        if (typesE f.body).all (fun u => (Scheme.substB i.2 u).toBool) then
          some ⟨[specialize E f i.2 n], [(n, ⟨0, s.rows, t⟩)], f.id :: idsE f.body⟩
        else none
      | _, _ => none
  | none =>
    if i.1 ∈ extsL [] ds then match E.ss.lookup i.1 with
      | none => some ⟨[], [], []⟩
      | some s => match mangle E.nm i.1 i.2, Scheme.substB i.2 s.body with
        | some n, .ok t => some ⟨[], [(n, ⟨0, s.rows, t⟩)], []⟩
        | _, _ => none
    else match mangle E.nm i.1 i.2 with
      | none => none
      | some _ => some ⟨[], [], []⟩

/-- `generate_specializations`, `specialize.rs` 34-107, and `specialize_metadata` for each new
function, `mod.rs` 92-94. -/
def generateL (E : Env) (ds : List Decl) : List Inst → State → Option State
  | [], st => some st
  | i :: is, st => match generate E ds i with
    | none => none
    | some new =>
      if tableOk i.2 new.origins st.nodeTypes ∧ tableOk i.2 new.origins st.calleeTypes then
        generateL E ds is
          { st with
            decls := st.decls ++ new.decl
            types := st.types ++ new.type
            nodeTypes := cloneTable i.2 (E.hash i.2) new.origins st.nodeTypes
            calleeTypes := cloneTable i.2 (E.hash i.2) new.origins st.calleeTypes }
      else none

/-- The instances that are not known yet, once each, `mod.rs` 70-80. -/
def fresh (K : List Inst) : List Inst → List Inst
  | [] => []
  | i :: is => if i ∈ K then fresh K is else i :: fresh (i :: K) is

/-- One round, `mod.rs` 63-112.  The new declarations are made from the declarations of this round
and everything is redirected afterwards. -/
def round (E : Env) (st : State) (new : List Inst) : Option State :=
  match generateL E st.decls new st with
  | none => none
  | some st' =>
    some { st' with
      known := st.known ++ new
      decls := rewDs E.nm E.ss (st.known ++ new) st'.decls }

/-- The loop, `mod.rs` 63-117.  `none` is a panic, in particular when no round finds nothing new. -/
def rounds (E : Env) : Nat → State → Option State
  | 0, _ => none
  | n + 1, st =>
    match fresh st.known (visitDs E.ss st.calleeTypes st.decls) with
    | [] => some st
    | i :: is => match round E st (i :: is) with
      | none => none
      | some st' => rounds E n st'

/-- `MAX_TRANSITIVE_SPECIALIZATION_ROUNDS`, `mod.rs` 14. -/
def maxRounds : Nat := 64

/-- `monomorphize_functions`, `mod.rs` 41-117. -/
def monomorphize (E : Env) (ds : List Decl) (nodeTypes calleeTypes : Table) : Option State :=
  rounds E maxRounds ⟨ds, [], E.ss, nodeTypes, calleeTypes⟩

end Verif.Instances
