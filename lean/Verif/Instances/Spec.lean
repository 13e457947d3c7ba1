import Verif.Instances.Machine
import Verif.Mono.Spec
import Mathlib.Data.List.Forall2

/-!
# What specialisation should leave as it is
-/

namespace Verif.Instances
open Verif.Types

mutual
/-- The variables and functions an expression refers to, with the nodes of the references. -/
def usesE : Expr → List (NodeId × TRef)
  | .var id r => [(id, r)]
  | .lit _ _ => []
  | .call _ f as => usesE f ++ usesEs as
  | .cons _ _ as => usesEs as
  | .record _ _ _ vs sp => usesEs vs ++ usesO sp
  | .method _ r _ as => usesE r ++ usesEs as
  | .block _ ss v => usesSs ss ++ usesE v
  | .case _ s as => usesE s ++ usesAs as
  | .lam _ _ b => usesE b
  | .handle _ b hs => usesE b ++ usesHs hs
  | .resume _ _ a => usesE a
  | .tuple _ as => usesEs as
  | .list _ as => usesEs as
  | .binop _ _ l r => usesE l ++ usesE r
  | .err _ => []
def usesEs : List Expr → List (NodeId × TRef)
  | [] => []
  | e :: es => usesE e ++ usesEs es
def usesO : Option Expr → List (NodeId × TRef)
  | none => []
  | some e => usesE e
def usesS : Stmt → List (NodeId × TRef)
  | .bind _ _ v => usesE v
  | .expr _ e => usesE e
def usesSs : List Stmt → List (NodeId × TRef)
  | [] => []
  | s :: ss => usesS s ++ usesSs ss
def usesA : Arm → List (NodeId × TRef)
  | .mk _ _ g b => usesO g ++ usesE b
def usesAs : List Arm → List (NodeId × TRef)
  | [] => []
  | a :: as => usesA a ++ usesAs as
def usesH : HArm → List (NodeId × TRef)
  | .mk _ _ b => usesE b
def usesHs : List HArm → List (NodeId × TRef)
  | [] => []
  | h :: hs => usesH h ++ usesHs hs
end

mutual
/-- The constructors and record types a pattern names. -/
def tagsP : Pat → List TRef
  | .variant _ r ps => r :: tagsPs ps
  | .record _ r fs => r.toList ++ tagsFs fs
  | .tuple _ ps => tagsPs ps
  | .list _ ps => tagsPs ps
  | .listRest _ ps _ => tagsPs ps
  | .as _ p _ => tagsP p
  | .wild _ => []
  | .bind _ _ => []
  | .lit _ _ => []
  | .err _ => []
def tagsPs : List Pat → List TRef
  | [] => []
  | p :: ps => tagsP p ++ tagsPs ps
def tagsF : FPat → List TRef
  | .short .. => []
  | .full _ _ p => tagsP p
def tagsFs : List FPat → List TRef
  | [] => []
  | f :: fs => tagsF f ++ tagsFs fs
end

/-- The constructors and abilities a handler arm names. -/
def tagsK : HKind → List TRef
  | .done p => tagsP p
  | .fn r _ ps => r :: tagsPs ps
  | .op r _ ps _ => r :: tagsPs ps

mutual
/-- The constructors, record types and abilities an expression names, in patterns too. -/
def tagsE : Expr → List TRef
  | .var _ _ => []
  | .lit _ _ => []
  | .call _ f as => tagsE f ++ tagsEs as
  | .cons _ r as => r :: tagsEs as
  | .record _ r _ vs sp => r :: (tagsEs vs ++ tagsO sp)
  | .method _ r _ as => tagsE r ++ tagsEs as
  | .block _ ss v => tagsSs ss ++ tagsE v
  | .case _ s as => tagsE s ++ tagsAs as
  | .lam _ _ b => tagsE b
  | .handle _ b hs => tagsE b ++ tagsHs hs
  | .resume _ _ a => tagsE a
  | .tuple _ as => tagsEs as
  | .list _ as => tagsEs as
  | .binop _ _ l r => tagsE l ++ tagsE r
  | .err _ => []
def tagsEs : List Expr → List TRef
  | [] => []
  | e :: es => tagsE e ++ tagsEs es
def tagsO : Option Expr → List TRef
  | none => []
  | some e => tagsE e
def tagsS : Stmt → List TRef
  | .bind _ p v => tagsP p ++ tagsE v
  | .expr _ e => tagsE e
def tagsSs : List Stmt → List TRef
  | [] => []
  | s :: ss => tagsS s ++ tagsSs ss
def tagsA : Arm → List TRef
  | .mk _ p g b => tagsP p ++ (tagsO g ++ tagsE b)
def tagsAs : List Arm → List TRef
  | [] => []
  | a :: as => tagsA a ++ tagsAs as
def tagsH : HArm → List TRef
  | .mk _ k b => tagsK k ++ tagsE b
def tagsHs : List HArm → List TRef
  | [] => []
  | h :: hs => tagsH h ++ tagsHs hs
end

mutual
/-- All nodes of a pattern. -/
def nodesP : Pat → List NodeId
  | .wild id => [id]
  | .bind id _ => [id]
  | .lit id _ => [id]
  | .variant id _ ps => id :: nodesPs ps
  | .record id _ fs => id :: nodesFs fs
  | .tuple id ps => id :: nodesPs ps
  | .list id ps => id :: nodesPs ps
  | .listRest id ps _ => id :: nodesPs ps
  | .as id p _ => id :: nodesP p
  | .err id => [id]
def nodesPs : List Pat → List NodeId
  | [] => []
  | p :: ps => nodesP p ++ nodesPs ps
def nodesF : FPat → List NodeId
  | .short id _ _ => [id]
  | .full id _ p => id :: nodesP p
def nodesFs : List FPat → List NodeId
  | [] => []
  | f :: fs => nodesF f ++ nodesFs fs
end

/-- All nodes of the patterns of a handler arm. -/
def nodesK : HKind → List NodeId
  | .done p => nodesP p
  | .fn _ _ ps => nodesPs ps
  | .op _ _ ps _ => nodesPs ps

mutual
/-- All nodes of an expression: each constructor of the syntax has one. -/
def nodesE : Expr → List NodeId
  | .var id _ => [id]
  | .lit id _ => [id]
  | .call id f as => id :: (nodesE f ++ nodesEs as)
  | .cons id _ as => id :: nodesEs as
  | .record id _ _ vs sp => id :: (nodesEs vs ++ nodesO sp)
  | .method id r _ as => id :: (nodesE r ++ nodesEs as)
  | .block id ss e => id :: (nodesSs ss ++ nodesE e)
  | .case id s as => id :: (nodesE s ++ nodesAs as)
  | .lam id _ b => id :: nodesE b
  | .handle id b hs => id :: (nodesE b ++ nodesHs hs)
  | .resume id _ a => id :: nodesE a
  | .tuple id as => id :: nodesEs as
  | .list id as => id :: nodesEs as
  | .binop id _ l r => id :: (nodesE l ++ nodesE r)
  | .err id => [id]
def nodesEs : List Expr → List NodeId
  | [] => []
  | e :: es => nodesE e ++ nodesEs es
def nodesO : Option Expr → List NodeId
  | none => []
  | some e => nodesE e
def nodesS : Stmt → List NodeId
  | .bind id p e => id :: (nodesP p ++ nodesE e)
  | .expr id e => id :: nodesE e
def nodesSs : List Stmt → List NodeId
  | [] => []
  | s :: ss => nodesS s ++ nodesSs ss
def nodesA : Arm → List NodeId
  | .mk id p g b => id :: (nodesP p ++ (nodesO g ++ nodesE b))
def nodesAs : List Arm → List NodeId
  | [] => []
  | a :: as => nodesA a ++ nodesAs as
def nodesH : HArm → List NodeId
  | .mk id k b => id :: (nodesK k ++ nodesE b)
def nodesHs : List HArm → List NodeId
  | [] => []
  | h :: hs => nodesH h ++ nodesHs hs
end

/-- All nodes of a function. -/
def nodes (f : Fun) : List NodeId := f.id :: nodesE f.body

/-- The children and effects a type may have: only function and continuation types have effects,
primitive types and variables have no children. -/
def Shaped : Head → List Ty → List Eff → Prop
  | .func _, _, _ => True
  | .cont, _, _ => True
  | .named _ _, _, es => es = []
  | .tuple, _, es => es = []
  | .app, _, es => es = []
  | _, ks, es => ks = [] ∧ es = []

mutual
/-- A type as the compiler builds it. -/
def Formed : Ty → Prop
  | .uni _ => True
  | .node h ks es _ => Shaped h ks es ∧ FormedL ks ∧ FormedE es
def FormedL : List Ty → Prop
  | [] => True
  | t :: ts => Formed t ∧ FormedL ts
def FormedEff : Eff → Prop
  | .mk _ as => FormedL as
def FormedE : List Eff → Prop
  | [] => True
  | e :: es => FormedEff e ∧ FormedE es
end

/-- The functions of a program, with their full names. -/
abbrev functions (ds : List Decl) : List (Name × Fun) := funsL [] ds

/-- A program as it is written: no name contains `$`, which no identifier of the language does. -/
structure Source (E : Env) (ds : List Decl) : Prop where
  schemes : ∀ n s, E.ss.lookup n = some s → '$' ∉ n
  names : ∀ n f, (n, f) ∈ functions ds → '$' ∉ n
  uses : ∀ n f, (n, f) ∈ functions ds → ∀ u ∈ usesE f.body, ∀ g, u.2.res = .func g → '$' ∉ g

/-- A reference of type `ty` named `r` and names `r'` now: still the same, or, if it was a generic
function, its copy for one of the instances `K`, namely for type arguments that give the scheme of
the function the type `ty`. -/
def Redirected (E : Env) (K : List Inst) (ty : Ty) (r r' : Res) : Prop :=
  r' = r ∨ ∃ f ts s n, r = .func f ∧ r' = .func n ∧ (f, ts) ∈ K ∧ E.ss.lookup f = some s ∧
    ts.length = s.params ∧ Mono.InstOf ts s.body ty ∧ Mono.mangle E.nm f ts = some n

/-- `g` is the function `f` with some of its references redirected. -/
structure SameFun (E : Env) (K : List Inst) (f g : Fun) : Prop where
  id : g.id = f.id
  params : g.ps = f.ps
  uses : List.Forall₂ (fun u u' : NodeId × TRef => u'.1 = u.1 ∧ u'.2.ty = u.2.ty ∧
    Redirected E K u'.2.ty u.2.res u'.2.res) (usesE f.body) (usesE g.body)
  tags : tagsE g.body = tagsE f.body

/-- `g` is the function `f` at the type arguments `ts`: all its types are those of `f` with `ts` for
the type parameters, and its references are redirected according to these types. -/
structure CopyAt (E : Env) (K : List Inst) (ts : List Ty) (f g : Fun) : Prop where
  id : g.id = ⟨f.id.raw, some (E.hash ts)⟩
  params : g.ps = f.ps
  uses : List.Forall₂ (fun u u' : NodeId × TRef => u'.1 = ⟨u.1.raw, some (E.hash ts)⟩ ∧
    Scheme.substB ts u.2.ty = .ok u'.2.ty ∧ Redirected E K u'.2.ty u.2.res u'.2.res)
    (usesE f.body) (usesE g.body)
  tags : List.Forall₂ (fun r r' : TRef => r'.res = r.res ∧ Scheme.substB ts r.ty = .ok r'.ty)
    (tagsE f.body) (tagsE g.body)

/-- What the type checker hands over: well-formed types, type parameters where they can be found,
nodes of the source, and a table of callee types that says what the references say. -/
structure Checked (E : Env) (ds : List Decl) (calleeTypes : Table) : Prop where
  schemes : ∀ n s, E.ss.lookup n = some s → Mono.WF s.body ∧ Mono.Plain s.body ∧
    ∀ i < s.params, Mono.Shows i s.body
  types : ∀ n f, (n, f) ∈ functions ds → ∀ u ∈ usesE f.body, Formed u.2.ty
  nodes : ∀ n f, (n, f) ∈ functions ds → ∀ id ∈ nodes f, id.variant = none
  callee : ∀ n f, (n, f) ∈ functions ds → ∀ u ∈ usesE f.body, ∀ t, calleeTypes.lookup u.1 = some t → t = u.2.ty
  keys : ∀ id t, calleeTypes.lookup id = some t → id.variant = none

/-- A reference to `g` of type `ty` is a use of `g` at the concrete types `ts`. -/
def UsedAt (E : Env) (g : Name) (ty : Ty) (ts : List Ty) : Prop :=
  ∃ s, E.ss.lookup g = some s ∧ s.params ≠ 0 ∧ ts.length = s.params ∧ Mono.InstOf ts s.body ty ∧
    ∀ t ∈ ts, Mono.concrete t = true

/-- The instances a program needs: those used by a function as it is written (level 0), and those
used by a generic function when it is an instance of the level before. -/
inductive Needed (E : Env) (ds : List Decl) : Nat → Inst → Prop
  | source {n f u g ts} : (n, f) ∈ functions ds → u ∈ usesE f.body → u.2.res = .func g →
      UsedAt E g u.2.ty ts → Needed E ds 0 (g, ts)
  | copy {k h us f u g c ts} : Needed E ds k (h, us) → (functions ds).lookup h = some f → u ∈ usesE f.body →
      u.2.res = .func g → Scheme.substB us u.2.ty = .ok c → UsedAt E g c ts → Needed E ds (k + 1) (g, ts)

/-- The hash that tells the nodes of different copies apart does so for the instances needed. -/
def NoClash (E : Env) (ds : List Decl) : Prop :=
  ∀ j k a b, Needed E ds j a → Needed E ds k b → E.hash a.2 = E.hash b.2 → a.2 = b.2

/-- Nothing goes wrong in making a copy of a function for `ts`: its name can be built, and all its
types, and those recorded for its nodes, mention no other type parameters than its own. -/
structure Fits (E : Env) (ds : List Decl) (nodeTypes calleeTypes : Table) (i : Inst) : Prop where
  name : ∃ n, Mono.mangle E.nm i.1 i.2 = some n
  scheme : ∀ s, E.ss.lookup i.1 = some s → ∃ t, Scheme.substB i.2 s.body = .ok t
  uses : ∀ f, (functions ds).lookup i.1 = some f → ∀ u ∈ usesE f.body, ∃ t, Scheme.substB i.2 u.2.ty = .ok t
  tags : ∀ f, (functions ds).lookup i.1 = some f → ∀ r ∈ tagsE f.body, ∃ t, Scheme.substB i.2 r.ty = .ok t
  nodes : ∀ f, (functions ds).lookup i.1 = some f → ∀ id ∈ nodes f, ∀ t,
    nodeTypes.lookup id = some t ∨ calleeTypes.lookup id = some t → ∃ t', Scheme.substB i.2 t = .ok t'

end Verif.Instances
