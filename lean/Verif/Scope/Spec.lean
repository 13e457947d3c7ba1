import Verif.Scope.Model
/-!
# Lexical scope

A specification of what names mean, as rules: `Γ` lists the binders in scope, the nearest first, each
with its identity. A name means the nearest binder of that name. The rules say which binders are in
scope where; they also collect the names that mean nothing.
-/
namespace Verif.Scope

open NameEnv (Symbol Binding Env Map)

/-- What is visible besides local names: the module environment, the inline modules around, and the
operations of the abilities in the annotation of the function. -/
structure Ctx where
  env : Env
  path : List Symbol
  ops : Map Binding

/-- What a name means that no binder in scope has: the member of the inline module, else what the
module environment says, else the operation. -/
def Ctx.global (C : Ctx) (x : Symbol) : Option Binding :=
  ((if C.path = [] then none else C.env.lookupQualified ("::".intercalate C.path) x).or
    (C.env.lookup x)).or (C.ops x)

/-- A name means the nearest binder; without one the global meaning; without one nothing. -/
inductive Refers (C : Ctx) (Γ : List (Symbol × Nat)) : NameEnv.Name → Ref → Prop
  | local_ {Γ₁ Γ₂ : List (Symbol × Nat)} {x : Symbol} {i : Nat} (h : Γ = Γ₁ ++ (x, i) :: Γ₂)
      (hn : ∀ b ∈ Γ₁, b.1 ≠ x) : Refers C Γ (.simple x) (.loc i x)
  | global {x : Symbol} {b : Binding} (hn : ∀ b ∈ Γ, b.1 ≠ x) (h : C.global x = some b) :
      Refers C Γ (.simple x) (toRef b x)
  | member {ns x : Symbol} {b : Binding} (h : C.env.lookupQualified ns x = some b) :
      Refers C Γ (.qualified ns x) (toRef b x)
  | missing {x : Symbol} (hn : ∀ b ∈ Γ, b.1 ≠ x) (h : C.global x = none) :
      Refers C Γ (.simple x) (.unresolved x)
  | noMember {ns x : Symbol} (h : C.env.lookupQualified ns x = none) :
      Refers C Γ (.qualified ns x) (.unresolved x)

/-- The names to report: those that mean nothing. -/
def report (o : Occ) : Ref → List Occ
  | .unresolved _ => [o]
  | _ => []

inductive HeadR (C : Ctx) (Γ : List (Symbol × Nat)) : Option Occ → Option Ref → List Occ → Prop
  | none : HeadR C Γ none none []
  | some {o : Occ} {r : Ref} (h : Refers C Γ o.name r) : HeadR C Γ (some o) (some r) (report o r)

/-- Parameters come into scope in order. -/
inductive ParamsR : List (Symbol × Nat) → List Param → List Param → List (Symbol × Nat) → Prop
  | nil (Γ : List (Symbol × Nat)) : ParamsR Γ [] [] Γ
  | cons {Γ Γ' : List (Symbol × Nat)} {p : Param} {i : Nat} {ps ps' : List Param}
      (h : ParamsR ((p.name, i) :: Γ) ps ps' Γ') :
      ParamsR Γ (p :: ps) ({ p with id := some i } :: ps') Γ'

mutual
/-- `PatR C Γ p p' Γ' E`: the pattern `p` where `Γ` is in scope is resolved to `p'`; afterwards `Γ'` is
in scope; `E` are the names to report. -/
inductive PatR (C : Ctx) : List (Symbol × Nat) → Pat Occ → Pat Ref → List (Symbol × Nat) → List Occ → Prop
  | leaf {Γ : List (Symbol × Nat)} : PatR C Γ .leaf .leaf Γ []
  | bind {Γ : List (Symbol × Nat)} {sp : Span} {x : Symbol} {i : Nat} {o : Option Nat} :
      PatR C Γ (.bind sp x o) (.bind sp x (some i)) ((x, i) :: Γ) []
  | con {Γ Γ' : List (Symbol × Nat)} {sp : Span} {h : Option Occ} {h' : Option Ref} {ps : Pats Occ}
      {ps' : Pats Ref} {E E' : List Occ} (hh : HeadR C Γ h h' E) (hp : PatsR C Γ ps ps' Γ' E') :
      PatR C Γ (.con sp h ps) (.con sp h' ps') Γ' (E ++ E')
  | short {Γ : List (Symbol × Nat)} {sp : Span} {x : Symbol} {i : Nat} :
      PatR C Γ (.short sp x) (.field x (.bind sp x (some i))) ((x, i) :: Γ) []
  | field {Γ Γ' : List (Symbol × Nat)} {x : Symbol} {p : Pat Occ} {p' : Pat Ref} {E : List Occ}
      (hp : PatR C Γ p p' Γ' E) : PatR C Γ (.field x p) (.field x p') Γ' E
  | listRest {Γ Γ' : List (Symbol × Nat)} {sp : Span} {ps : Pats Occ} {ps' : Pats Ref} {x : Symbol}
      {tok : Span} {o : Option Nat} {i : Nat} {E : List Occ} (hp : PatsR C Γ ps ps' Γ' E)
      (hx : x ≠ "_") :
      PatR C Γ (.listRest sp ps (some (x, tok)) o) (.listRest sp ps' (some (x, tok)) (some i))
        ((x, i) :: Γ') E
  | listRest_ {Γ Γ' : List (Symbol × Nat)} {sp : Span} {ps : Pats Occ} {ps' : Pats Ref} {tok : Span}
      {o : Option Nat} {E : List Occ} (hp : PatsR C Γ ps ps' Γ' E) :
      PatR C Γ (.listRest sp ps (some ("_", tok)) o) (.listRest sp ps' (some ("_", tok)) none) Γ' E
  | listRestNone {Γ Γ' : List (Symbol × Nat)} {sp : Span} {ps : Pats Occ} {ps' : Pats Ref}
      {o : Option Nat} {E : List Occ} (hp : PatsR C Γ ps ps' Γ' E) :
      PatR C Γ (.listRest sp ps none o) (.listRest sp ps' none none) Γ' E
  | asP {Γ Γ' : List (Symbol × Nat)} {sp : Span} {p : Pat Occ} {p' : Pat Ref} {x : Symbol} {tok : Span}
      {o : Option Nat} {i : Nat} {E : List Occ} (hp : PatR C Γ p p' Γ' E) :
      PatR C Γ (.asP sp p x tok o) (.asP sp p' x tok (some i)) ((x, i) :: Γ') E
inductive PatsR (C : Ctx) : List (Symbol × Nat) → Pats Occ → Pats Ref → List (Symbol × Nat) → List Occ → Prop
  | nil {Γ : List (Symbol × Nat)} : PatsR C Γ .nil .nil Γ []
  | cons {Γ Γ' Γ'' : List (Symbol × Nat)} {p : Pat Occ} {p' : Pat Ref} {ps : Pats Occ} {ps' : Pats Ref}
      {E E' : List Occ} (hp : PatR C Γ p p' Γ' E) (hps : PatsR C Γ' ps ps' Γ'' E') :
      PatsR C Γ (.cons p ps) (.cons p' ps') Γ'' (E ++ E')
end

/-- The name of the ability in a handler arm; `_` stands for an operation written without one. -/
inductive AbilityR (C : Ctx) (Γ : List (Symbol × Nat)) (o : Occ) : Ref → List Occ → Prop
  | placeholder (h : o.name = .simple "_") : AbilityR C Γ o (.unresolved "_") []
  | name {r : Ref} (hn : o.name ≠ .simple "_") (h : Refers C Γ o.name r) :
      AbilityR C Γ o r (report o r)

mutual
/-- `ExprR C ρ Γ e e' E`: the expression `e` where `Γ` is in scope and `ρ` is the resumption of the
nearest operation arm around is resolved to `e'`; `E` are the names to report. -/
inductive ExprR (C : Ctx) : Option Nat → List (Symbol × Nat) → Expr Occ → Expr Ref → List Occ → Prop
  | var {ρ : Option Nat} {Γ : List (Symbol × Nat)} {sp : Span} {o : Occ} {r : Ref}
      (h : Refers C Γ o.name r) : ExprR C ρ Γ (.var sp o) (.var sp r) (report o r)
  | leaf {ρ : Option Nat} {Γ : List (Symbol × Nat)} : ExprR C ρ Γ .leaf .leaf []
  | node {ρ : Option Nat} {Γ : List (Symbol × Nat)} {sp : Span} {h : Option Occ} {h' : Option Ref}
      {kids : Exprs Occ} {kids' : Exprs Ref} {E E' : List Occ} (hh : HeadR C Γ h h' E)
      (hk : ExprsR C ρ Γ kids kids' E') : ExprR C ρ Γ (.node sp h kids) (.node sp h' kids') (E ++ E')
  | block {ρ : Option Nat} {Γ Γ' : List (Symbol × Nat)} {ss : Stmts Occ} {ss' : Stmts Ref}
      {v : Expr Occ} {v' : Expr Ref} {E E' : List Occ} (hs : StmtsR C ρ Γ ss ss' Γ' E)
      (hv : ExprR C ρ Γ' v v' E') : ExprR C ρ Γ (.block ss v) (.block ss' v') (E ++ E')
  | cases {ρ : Option Nat} {Γ : List (Symbol × Nat)} {e : Expr Occ} {e' : Expr Ref} {arms : Arms Occ}
      {arms' : Arms Ref} {E E' : List Occ} (he : ExprR C ρ Γ e e' E)
      (ha : ArmsR C ρ Γ arms arms' E') : ExprR C ρ Γ (.cases e arms) (.cases e' arms') (E ++ E')
  | lam {ρ : Option Nat} {Γ Γ' : List (Symbol × Nat)} {ps ps' : List Param} {b : Expr Occ}
      {b' : Expr Ref} {E : List Occ} (hp : ParamsR Γ ps ps' Γ') (hb : ExprR C ρ Γ' b b' E) :
      ExprR C ρ Γ (.lam ps b) (.lam ps' b') E
  | resume {ρ : Option Nat} {Γ : List (Symbol × Nat)} {e : Expr Occ} {e' : Expr Ref} {o : Option Nat}
      {E : List Occ} (he : ExprR C ρ Γ e e' E) : ExprR C ρ Γ (.resume e o) (.resume e' ρ) E
inductive ExprsR (C : Ctx) : Option Nat → List (Symbol × Nat) → Exprs Occ → Exprs Ref → List Occ → Prop
  | nil {ρ : Option Nat} {Γ : List (Symbol × Nat)} : ExprsR C ρ Γ .nil .nil []
  | cons {ρ : Option Nat} {Γ : List (Symbol × Nat)} {e : Expr Occ} {e' : Expr Ref} {es : Exprs Occ}
      {es' : Exprs Ref} {E E' : List Occ} (he : ExprR C ρ Γ e e' E) (hes : ExprsR C ρ Γ es es' E') :
      ExprsR C ρ Γ (.cons e es) (.cons e' es') (E ++ E')
/-- The binders of a `let` are in scope in what follows in the block, not in its value. -/
inductive StmtsR (C : Ctx) : Option Nat → List (Symbol × Nat) → Stmts Occ → Stmts Ref →
    List (Symbol × Nat) → List Occ → Prop
  | nil {ρ : Option Nat} {Γ : List (Symbol × Nat)} : StmtsR C ρ Γ .nil .nil Γ []
  | bind {ρ : Option Nat} {Γ Γ' Γ'' : List (Symbol × Nat)} {p : Pat Occ} {p' : Pat Ref} {v : Expr Occ}
      {v' : Expr Ref} {ss : Stmts Occ} {ss' : Stmts Ref} {E E' E'' : List Occ}
      (hv : ExprR C ρ Γ v v' E) (hp : PatR C Γ p p' Γ' E') (hs : StmtsR C ρ Γ' ss ss' Γ'' E'') :
      StmtsR C ρ Γ (.bind p v ss) (.bind p' v' ss') Γ'' (E ++ (E' ++ E''))
  | expr {ρ : Option Nat} {Γ Γ' : List (Symbol × Nat)} {e : Expr Occ} {e' : Expr Ref} {ss : Stmts Occ}
      {ss' : Stmts Ref} {E E' : List Occ} (he : ExprR C ρ Γ e e' E) (hs : StmtsR C ρ Γ ss ss' Γ' E') :
      StmtsR C ρ Γ (.expr e ss) (.expr e' ss') Γ' (E ++ E')
/-- The binders of an arm are in scope in its guard and body only. The resumption of an operation arm
belongs to its body only. -/
inductive ArmsR (C : Ctx) : Option Nat → List (Symbol × Nat) → Arms Occ → Arms Ref → List Occ → Prop
  | nil {ρ : Option Nat} {Γ : List (Symbol × Nat)} : ArmsR C ρ Γ .nil .nil []
  | plain {ρ : Option Nat} {Γ Γ' : List (Symbol × Nat)} {sp : Span} {ps : Pats Occ} {ps' : Pats Ref}
      {g : Exprs Occ} {g' : Exprs Ref} {b : Expr Occ} {b' : Expr Ref} {rest : Arms Occ} {rest' : Arms Ref}
      {E₁ E₂ E₃ E₄ : List Occ} (hp : PatsR C Γ ps ps' Γ' E₁) (hg : ExprsR C ρ Γ' g g' E₂)
      (hb : ExprR C ρ Γ' b b' E₃) (hr : ArmsR C ρ Γ rest rest' E₄) :
      ArmsR C ρ Γ (.cons sp .plain ps g b rest) (.cons sp .plain ps' g' b' rest')
        (E₁ ++ (E₂ ++ (E₃ ++ E₄)))
  | fn {ρ : Option Nat} {Γ Γ' : List (Symbol × Nat)} {sp : Span} {a : Occ} {a' : Ref} {ps : Pats Occ}
      {ps' : Pats Ref} {g : Exprs Occ} {g' : Exprs Ref} {b : Expr Occ} {b' : Expr Ref} {rest : Arms Occ}
      {rest' : Arms Ref} {E₀ E₁ E₂ E₃ E₄ : List Occ} (ha : AbilityR C Γ a a' E₀)
      (hp : PatsR C Γ ps ps' Γ' E₁) (hg : ExprsR C ρ Γ' g g' E₂) (hb : ExprR C ρ Γ' b b' E₃)
      (hr : ArmsR C ρ Γ rest rest' E₄) :
      ArmsR C ρ Γ (.cons sp (.fn a) ps g b rest) (.cons sp (.fn a') ps' g' b' rest')
        (E₀ ++ (E₁ ++ (E₂ ++ (E₃ ++ E₄))))
  | op {ρ : Option Nat} {Γ Γ' : List (Symbol × Nat)} {sp : Span} {a : Occ} {a' : Ref} {o : Option Nat}
      {i : Nat} {ps : Pats Occ} {ps' : Pats Ref} {g : Exprs Occ} {g' : Exprs Ref} {b : Expr Occ}
      {b' : Expr Ref} {rest : Arms Occ} {rest' : Arms Ref} {E₀ E₁ E₂ E₃ E₄ : List Occ}
      (ha : AbilityR C Γ a a' E₀) (hp : PatsR C Γ ps ps' Γ' E₁) (hg : ExprsR C (some i) Γ' g g' E₂)
      (hb : ExprR C (some i) Γ' b b' E₃) (hr : ArmsR C ρ Γ rest rest' E₄) :
      ArmsR C ρ Γ (.cons sp (.op a o) ps g b rest) (.cons sp (.op a' (some i)) ps' g' b' rest')
        (E₀ ++ (E₁ ++ (E₂ ++ (E₃ ++ E₄))))
end

/-- `b` is the operation that `x` means by the annotation: that of the first ability that has one. -/
def OpsOf (env : Env) (effects : List Symbol) (ops : Map Binding) : Prop :=
  ∀ x b, ops x = some b ↔ ∃ before a after, effects = before ++ a :: after ∧
    env.lookupQualified a x = some b ∧ (∃ ab op g, b = .abilityOp ab op g) ∧
    ∀ a' ∈ before, ∀ ab op g, env.lookupQualified a' x ≠ some (.abilityOp ab op g)

mutual
/-- `DeclR env path d d' E`: the declaration inside the inline modules `path`. In a function the
parameters are in scope, and nothing local outside of it. -/
inductive DeclR (env : Env) : List Symbol → Decl Occ → Decl Ref → List Occ → Prop
  | func {path : List Symbol} {sp tok : Span} {x : Symbol} {ps ps' : List Param} {eff : List Symbol}
      {ops : Map Binding} {b : Expr Occ} {b' : Expr Ref} {Γ : List (Symbol × Nat)} {E : List Occ}
      (ho : OpsOf env eff ops) (hp : ParamsR [] ps ps' Γ) (hb : ExprR ⟨env, path, ops⟩ none Γ b b' E) :
      DeclR env path (.func sp tok x ps eff b) (.func sp tok x ps' eff b') E
  | extern {path : List Symbol} {sp tok : Span} {x : Symbol} {ps : List (Span × Symbol)} :
      DeclR env path (.extern sp tok x ps) (.extern sp tok x ps) []
  | struct_ {path : List Symbol} {sp tok : Span} {x : Symbol} {fs : List (Span × Symbol)} :
      DeclR env path (.struct_ sp tok x fs) (.struct_ sp tok x fs) []
  | enum {path : List Symbol} {sp tok : Span} {x : Symbol} {vs : List (Span × Symbol)} :
      DeclR env path (.enum sp tok x vs) (.enum sp tok x vs) []
  | ability {path : List Symbol} {sp tok : Span} {x : Symbol} {os : List (Span × Symbol)} :
      DeclR env path (.ability sp tok x os) (.ability sp tok x os) []
  | use {path : List Symbol} : DeclR env path .use .use []
  | mod {path : List Symbol} {x : Symbol} {ds : Decls Occ} {ds' : Decls Ref} {E : List Occ}
      (h : DeclsR env (path ++ [x]) ds ds' E) : DeclR env path (.mod x ds) (.mod x ds') E
inductive DeclsR (env : Env) : List Symbol → Decls Occ → Decls Ref → List Occ → Prop
  | nil {path : List Symbol} : DeclsR env path .nil .nil []
  | cons {path : List Symbol} {d : Decl Occ} {d' : Decl Ref} {ds : Decls Occ} {ds' : Decls Ref}
      {E E' : List Occ} (h : DeclR env path d d' E) (hs : DeclsR env path ds ds' E') :
      DeclsR env path (.cons d ds) (.cons d' ds') (E ++ E')
end

/-! ## Binders and references of a resolved module -/

/-- A binder: its name (a resumption has none), where the name is written, the span of the parameter or
pattern that introduces it, and its identity. -/
structure Binder where
  name : Option Symbol
  tok : Span
  node : Span
  id : Nat
deriving DecidableEq, Repr

def bindersParams : List Param → List Binder
  | [] => []
  | p :: ps => (p.id.map fun i => ⟨some p.name, p.tok, p.span, i⟩).toList ++ bindersParams ps

mutual
def bindersPat : Pat Ref → List Binder
  | .leaf => []
  | .bind sp x id => (id.map fun i => ⟨some x, sp, sp, i⟩).toList
  | .con _ _ ps => bindersPats ps
  | .short _ _ => []
  | .field _ p => bindersPat p
  | .listRest sp ps rest id => bindersPats ps ++ (match rest, id with
      | some (x, tok), some i => [⟨some x, tok, sp, i⟩]
      | _, _ => [])
  | .asP sp p x tok id => bindersPat p ++ (id.map fun i => ⟨some x, tok, sp, i⟩).toList
def bindersPats : Pats Ref → List Binder
  | .nil => []
  | .cons p ps => bindersPat p ++ bindersPats ps
end

mutual
def bindersExpr : Expr Ref → List Binder
  | .var _ _ => []
  | .leaf => []
  | .node _ _ kids => bindersExprs kids
  | .block ss v => bindersStmts ss ++ bindersExpr v
  | .cases e arms => bindersExpr e ++ bindersArms arms
  | .lam ps b => bindersParams ps ++ bindersExpr b
  | .resume e _ => bindersExpr e
def bindersExprs : Exprs Ref → List Binder
  | .nil => []
  | .cons e es => bindersExpr e ++ bindersExprs es
def bindersStmts : Stmts Ref → List Binder
  | .nil => []
  | .bind p v ss => bindersPat p ++ (bindersExpr v ++ bindersStmts ss)
  | .expr e ss => bindersExpr e ++ bindersStmts ss
def bindersArms : Arms Ref → List Binder
  | .nil => []
  | .cons sp k ps g b rest =>
    (match k with
      | .op _ (some i) => [⟨none, sp, sp, i⟩]
      | _ => []) ++
    (bindersPats ps ++ (bindersExprs g ++ (bindersExpr b ++ bindersArms rest)))
end

mutual
def bindersDecl : Decl Ref → List Binder
  | .func _ _ _ ps _ b => bindersParams ps ++ bindersExpr b
  | .mod _ ds => bindersDecls ds
  | _ => []
/-- All binders of local names in a resolved module. -/
def bindersDecls : Decls Ref → List Binder
  | .nil => []
  | .cons d ds => bindersDecl d ++ bindersDecls ds
end

/-- A reference to a local name: the name, where the node is that holds it, and the identity. -/
structure LocalRef where
  name : Symbol
  span : Span
  id : Nat
deriving DecidableEq, Repr

def localRef (sp : Span) : Ref → List LocalRef
  | .loc i x => [⟨x, sp, i⟩]
  | _ => []

def localHead (sp : Span) : Option Ref → List LocalRef
  | none => []
  | some r => localRef sp r

mutual
def localsPat : Pat Ref → List LocalRef
  | .leaf => []
  | .bind _ _ _ => []
  | .con sp h ps => localHead sp h ++ localsPats ps
  | .short _ _ => []
  | .field _ p => localsPat p
  | .listRest _ ps _ _ => localsPats ps
  | .asP _ p _ _ _ => localsPat p
def localsPats : Pats Ref → List LocalRef
  | .nil => []
  | .cons p ps => localsPat p ++ localsPats ps
end

mutual
def localsExpr : Expr Ref → List LocalRef
  | .var sp r => localRef sp r
  | .leaf => []
  | .node sp h kids => localHead sp h ++ localsExprs kids
  | .block ss v => localsStmts ss ++ localsExpr v
  | .cases e arms => localsExpr e ++ localsArms arms
  | .lam _ b => localsExpr b
  | .resume e _ => localsExpr e
def localsExprs : Exprs Ref → List LocalRef
  | .nil => []
  | .cons e es => localsExpr e ++ localsExprs es
def localsStmts : Stmts Ref → List LocalRef
  | .nil => []
  | .bind p v ss => localsPat p ++ (localsExpr v ++ localsStmts ss)
  | .expr e ss => localsExpr e ++ localsStmts ss
def localsArms : Arms Ref → List LocalRef
  | .nil => []
  | .cons sp k ps g b rest =>
    (match k with
      | .plain => []
      | .fn a => localRef sp a
      | .op a _ => localRef sp a) ++
    (localsPats ps ++ (localsExprs g ++ (localsExpr b ++ localsArms rest)))
end

mutual
def localsDecl : Decl Ref → List LocalRef
  | .func _ _ _ _ _ b => localsExpr b
  | .mod _ ds => localsDecls ds
  | _ => []
/-- All references to local names in a resolved module. -/
def localsDecls : Decls Ref → List LocalRef
  | .nil => []
  | .cons d ds => localsDecl d ++ localsDecls ds
end

/-- A mention of a name: the span of the node that holds it, what it refers to, and whether that node is
just the name (a variable) or more (a construction, a pattern, an arm). -/
structure Mention where
  span : Span
  ref : Ref
  var : Bool
deriving DecidableEq, Repr

def mentionHead (sp : Span) : Option Ref → List Mention
  | none => []
  | some r => [⟨sp, r, false⟩]

mutual
def mentionsPat : Pat Ref → List Mention
  | .leaf => []
  | .bind _ _ _ => []
  | .con sp h ps => mentionHead sp h ++ mentionsPats ps
  | .short _ _ => []
  | .field _ p => mentionsPat p
  | .listRest _ ps _ _ => mentionsPats ps
  | .asP _ p _ _ _ => mentionsPat p
def mentionsPats : Pats Ref → List Mention
  | .nil => []
  | .cons p ps => mentionsPat p ++ mentionsPats ps
end

mutual
def mentionsExpr : Expr Ref → List Mention
  | .var sp r => [⟨sp, r, true⟩]
  | .leaf => []
  | .node sp h kids => mentionHead sp h ++ mentionsExprs kids
  | .block ss v => mentionsStmts ss ++ mentionsExpr v
  | .cases e arms => mentionsExpr e ++ mentionsArms arms
  | .lam _ b => mentionsExpr b
  | .resume e _ => mentionsExpr e
def mentionsExprs : Exprs Ref → List Mention
  | .nil => []
  | .cons e es => mentionsExpr e ++ mentionsExprs es
def mentionsStmts : Stmts Ref → List Mention
  | .nil => []
  | .bind p v ss => mentionsPat p ++ (mentionsExpr v ++ mentionsStmts ss)
  | .expr e ss => mentionsExpr e ++ mentionsStmts ss
def mentionsArms : Arms Ref → List Mention
  | .nil => []
  | .cons sp k ps g b rest =>
    (match k with
      | .plain => []
      | .fn a => [⟨sp, a, false⟩]
      | .op a _ => [⟨sp, a, false⟩]) ++
    (mentionsPats ps ++ (mentionsExprs g ++ (mentionsExpr b ++ mentionsArms rest)))
end

mutual
def mentionsDecl : Decl Ref → List Mention
  | .func _ _ _ _ _ b => mentionsExpr b
  | .mod _ ds => mentionsDecls ds
  | _ => []
/-- All mentions of names in the bodies of a resolved module. -/
def mentionsDecls : Decls Ref → List Mention
  | .nil => []
  | .cons d ds => mentionsDecl d ++ mentionsDecls ds
end

/-- Where the names of binders and variables are written in a resolved module. -/
def tokens (m : Decls Ref) : List Span :=
  (bindersDecls m).filterMap (fun b => b.name.map fun _ => b.tok) ++
    (mentionsDecls m).filterMap (fun q => if q.var then some q.span else none)

def Span.size (a : Span) : Nat := a.hi - a.lo

/-! ## Words of a source, and replacing some of them -/

/-- A name as written in a body: a binder, a field of a record pattern that is a binder too, a variable,
or the name of what is constructed, matched or handled. -/
inductive Word where
  | binder (x : Symbol)
  | short (x : Symbol)
  | var (n : NameEnv.Name)
  | head (n : NameEnv.Name)

def Word.name : Word → NameEnv.Name
  | .binder x | .short x => .simple x
  | .var n | .head n => n

def wordsHead : Option Occ → List Word
  | none => []
  | some o => [.head o.name]

def wordsParams (ps : List Param) : List Word := ps.map fun p => .binder p.name

mutual
def wordsPat : Pat Occ → List Word
  | .leaf => []
  | .bind _ x _ => [.binder x]
  | .con _ h ps => wordsHead h ++ wordsPats ps
  | .short _ x => [.short x]
  | .field _ p => wordsPat p
  | .listRest _ ps rest _ => wordsPats ps ++ (match rest with
      | some (x, _) => [.binder x]
      | none => [])
  | .asP _ p x _ _ => wordsPat p ++ [.binder x]
def wordsPats : Pats Occ → List Word
  | .nil => []
  | .cons p ps => wordsPat p ++ wordsPats ps
end

mutual
def wordsExpr : Expr Occ → List Word
  | .var _ o => [.var o.name]
  | .leaf => []
  | .node _ h kids => wordsHead h ++ wordsExprs kids
  | .block ss v => wordsStmts ss ++ wordsExpr v
  | .cases e arms => wordsExpr e ++ wordsArms arms
  | .lam ps b => wordsParams ps ++ wordsExpr b
  | .resume e _ => wordsExpr e
def wordsExprs : Exprs Occ → List Word
  | .nil => []
  | .cons e es => wordsExpr e ++ wordsExprs es
def wordsStmts : Stmts Occ → List Word
  | .nil => []
  | .bind p v ss => wordsPat p ++ (wordsExpr v ++ wordsStmts ss)
  | .expr e ss => wordsExpr e ++ wordsStmts ss
def wordsArms : Arms Occ → List Word
  | .nil => []
  | .cons _ k ps g b rest =>
    (match k with
      | .plain => []
      | .fn a => [.head a.name]
      | .op a _ => [.head a.name]) ++
    (wordsPats ps ++ (wordsExprs g ++ (wordsExpr b ++ wordsArms rest)))
end

mutual
def wordsDecl : Decl Occ → List Word
  | .func _ _ _ ps _ b => wordsParams ps ++ wordsExpr b
  | .mod _ ds => wordsDecls ds
  | _ => []
/-- All words in the bodies of a source. -/
def wordsDecls : Decls Occ → List Word
  | .nil => []
  | .cons d ds => wordsDecl d ++ wordsDecls ds
end

/-- The text of the name at a span after an edit: `y` where `T` says so. -/
def put (T : Span → Bool) (y : Symbol) (sp : Span) (x : Symbol) : Symbol := if T sp then y else x

def editParams (T : Span → Bool) (y : Symbol) (ps : List Param) : List Param :=
  ps.map fun p => { p with name := put T y p.tok p.name }

mutual
def editPat (T : Span → Bool) (y : Symbol) : Pat Occ → Pat Occ
  | .leaf => .leaf
  | .bind sp x id => .bind sp (put T y sp x) id
  | .con sp h ps => .con sp h (editPats T y ps)
  | .short sp x => .short sp (put T y sp x)
  | .field x p => .field x (editPat T y p)
  | .listRest sp ps rest id =>
    .listRest sp (editPats T y ps)
      (rest.map fun q => (if q.1 = "_" then "_" else put T y q.2 q.1, q.2)) id
  | .asP sp p x tok id => .asP sp (editPat T y p) (put T y tok x) tok id
def editPats (T : Span → Bool) (y : Symbol) : Pats Occ → Pats Occ
  | .nil => .nil
  | .cons p ps => .cons (editPat T y p) (editPats T y ps)
end

mutual
def editExpr (T : Span → Bool) (y : Symbol) : Expr Occ → Expr Occ
  | .var sp o => .var sp (if T sp then { o with name := .simple y } else o)
  | .leaf => .leaf
  | .node sp h kids => .node sp h (editExprs T y kids)
  | .block ss v => .block (editStmts T y ss) (editExpr T y v)
  | .cases e arms => .cases (editExpr T y e) (editArms T y arms)
  | .lam ps b => .lam (editParams T y ps) (editExpr T y b)
  | .resume e id => .resume (editExpr T y e) id
def editExprs (T : Span → Bool) (y : Symbol) : Exprs Occ → Exprs Occ
  | .nil => .nil
  | .cons e es => .cons (editExpr T y e) (editExprs T y es)
def editStmts (T : Span → Bool) (y : Symbol) : Stmts Occ → Stmts Occ
  | .nil => .nil
  | .bind p v ss => .bind (editPat T y p) (editExpr T y v) (editStmts T y ss)
  | .expr e ss => .expr (editExpr T y e) (editStmts T y ss)
def editArms (T : Span → Bool) (y : Symbol) : Arms Occ → Arms Occ
  | .nil => .nil
  | .cons sp k ps g b rest =>
    .cons sp k (editPats T y ps) (editExprs T y g) (editExpr T y b) (editArms T y rest)
end

mutual
def editDecl (T : Span → Bool) (y : Symbol) : Decl Occ → Decl Occ
  | .func sp tok x ps eff b => .func sp tok x (editParams T y ps) eff (editExpr T y b)
  | .mod x ds => .mod x (editDecls T y ds)
  | d => d
/-- The source with the names at the spans `T` replaced by `y`. (The spans are kept, as if the names
were equally long.) -/
def editDecls (T : Span → Bool) (y : Symbol) : Decls Occ → Decls Occ
  | .nil => .nil
  | .cons d ds => .cons (editDecl T y d) (editDecls T y ds)
end

/-! ## Giving a binder of a resolved module another name -/

/-- The name `y` if it is about the binder `i`. -/
def renName (i : Nat) (y : Symbol) (id : Option Nat) (x : Symbol) : Symbol :=
  if id = some i then y else x

def renRef (i : Nat) (y : Symbol) : Ref → Ref
  | .loc j x => if j = i then .loc i y else .loc j x
  | r => r

def renParams (i : Nat) (y : Symbol) (ps : List Param) : List Param :=
  ps.map fun p => { p with name := renName i y p.id p.name }

mutual
def renPat (i : Nat) (y : Symbol) : Pat Ref → Pat Ref
  | .leaf => .leaf
  | .bind sp x id => .bind sp (renName i y id x) id
  | .con sp h ps => .con sp (h.map (renRef i y)) (renPats i y ps)
  | .short sp x => .short sp x
  | .field x p => .field x (renPat i y p)
  | .listRest sp ps rest id =>
    .listRest sp (renPats i y ps) (rest.map fun q => (renName i y id q.1, q.2)) id
  | .asP sp p x tok id => .asP sp (renPat i y p) (renName i y id x) tok id
def renPats (i : Nat) (y : Symbol) : Pats Ref → Pats Ref
  | .nil => .nil
  | .cons p ps => .cons (renPat i y p) (renPats i y ps)
end

def renKind (i : Nat) (y : Symbol) : Kind Ref → Kind Ref
  | .plain => .plain
  | .fn a => .fn (renRef i y a)
  | .op a id => .op (renRef i y a) id

mutual
def renExpr (i : Nat) (y : Symbol) : Expr Ref → Expr Ref
  | .var sp r => .var sp (renRef i y r)
  | .leaf => .leaf
  | .node sp h kids => .node sp (h.map (renRef i y)) (renExprs i y kids)
  | .block ss v => .block (renStmts i y ss) (renExpr i y v)
  | .cases e arms => .cases (renExpr i y e) (renArms i y arms)
  | .lam ps b => .lam (renParams i y ps) (renExpr i y b)
  | .resume e id => .resume (renExpr i y e) id
def renExprs (i : Nat) (y : Symbol) : Exprs Ref → Exprs Ref
  | .nil => .nil
  | .cons e es => .cons (renExpr i y e) (renExprs i y es)
def renStmts (i : Nat) (y : Symbol) : Stmts Ref → Stmts Ref
  | .nil => .nil
  | .bind p v ss => .bind (renPat i y p) (renExpr i y v) (renStmts i y ss)
  | .expr e ss => .expr (renExpr i y e) (renStmts i y ss)
def renArms (i : Nat) (y : Symbol) : Arms Ref → Arms Ref
  | .nil => .nil
  | .cons sp k ps g b rest =>
    .cons sp (renKind i y k) (renPats i y ps) (renExprs i y g) (renExpr i y b) (renArms i y rest)
end

mutual
def renDecl (i : Nat) (y : Symbol) : Decl Ref → Decl Ref
  | .func sp tok x ps eff b => .func sp tok x (renParams i y ps) eff (renExpr i y b)
  | .mod x ds => .mod x (renDecls i y ds)
  | d => d
/-- The resolved module in which the binder `i` is called `y`, everything else unchanged: every
reference refers to the same binder or definition as before. -/
def renDecls (i : Nat) (y : Symbol) : Decls Ref → Decls Ref
  | .nil => .nil
  | .cons d ds => .cons (renDecl i y d) (renDecls i y ds)
end

end Verif.Scope
