import Verif.Typing.Model
import Mathlib.Data.List.Forall2

/-!
# What it means for an expression to have a type, and for a run to go wrong

Independent of the checker: types without effects, the usual rules of a language with let
polymorphism, and an evaluator.
-/

namespace Verif.Typing
open Verif.Types

/-! ## Types -/

/-- A type without variables and without effects: a constructor applied to types.  A function type
has its parameters followed by its result. -/
inductive S
  | node (h : Head) (ks : List S)

instance : Inhabited S := ⟨.node .tuple []⟩

def S.prim (p : Nat) : S := .node (.prim p) []
def S.bool : S := .prim 3
def S.named (i : Nat) (args : List S) : S := .node (.named i 0) args
def S.fn (params : List S) (res : S) : S := .node (.func 0) (params ++ [res])
def S.tuple (es : List S) : S := .node .tuple es

/-- What identifies the outermost constructor: the display name of a nominal type and the calling
convention of a function type do not count. -/
def head : Head → Head
  | .named i _ => .named i 0
  | .func _ => .func 0
  | h => h

mutual
/-- The type a checker type stands for when its variables stand for `δ` and its quantified
variables for `β`.  Effects are dropped. -/
def ev (δ : UVar → S) (β : List S) : Ty → S
  | .uni v => δ v
  | .node (.bound i) _ _ _ => (β[i]?).getD default
  | .node h ks _ _ => .node (head h) (evL δ β ks)
def evL (δ : UVar → S) (β : List S) : List Ty → List S
  | [] => []
  | t :: ts => ev δ β t :: evL δ β ts
end

/-- `τ` is an instance of a scheme, its free variables standing for `δ`. -/
def InstOf (δ : UVar → S) (s : Scheme.PolyTy) (τ : S) : Prop :=
  ∃ β : List S, β.length = s.params ∧ τ = ev δ β s.body

/-- `τ` is an instance of a scheme. -/
def Inst (s : Scheme.PolyTy) (τ : S) : Prop := ∃ δ, InstOf δ s τ

/-- The constructor of a type by which methods are selected. -/
def tag : S → Option Head
  | .node (.prim p) _ => some (.prim p)
  | .node (.named i _) _ => some (.named i 0)
  | _ => none

/-- The constructor of the receiver of a method. -/
def recvTag (m : Method) : Option Head :=
  match m.ty with
  | .node (.func _) (.node (.prim p) _ _ _ :: _ :: _) _ _ => some (.prim p)
  | .node (.func _) (.node (.named i _) _ _ _ :: _ :: _) _ _ => some (.named i 0)
  | _ => none

/-- The method `m` for receivers with the constructor `h`: there has to be exactly one. -/
def select (ms : List Method) (m : Nat) (h : Option Head) : Option Nat :=
  match ms.filter (fun e => e.name == m && h.isSome && recvTag e == h) with
  | [e] => some e.fn
  | _ => none

/-- What the declarations of a program say: the types at which a function or a constructor may be
used, the function selected by a method name and the type of its receiver, and the identities of
`String` and `List`. -/
structure Sig where
  fn : Nat → S → Prop
  ctor : Nat → S → Prop
  method : Nat → Option Head → Option Nat
  str : Nat
  list : Nat

def Sig.lit (D : Sig) : Lit → S
  | .nat _ => .prim 1
  | .int _ => .prim 0
  | .float _ => .prim 2
  | .bool _ => .bool
  | .str _ => .named D.str []
  | .bytes _ => .prim 4
  | .unit => .prim 6
  | .rune _ => .prim 5

def Sig.listOf (D : Sig) (τ : S) : S := .named D.list [τ]

/-- The declarations of a program whose functions have the schemes `ss`. -/
def Prog.sig (P : Prog) (ss : List Scheme.PolyTy) : Sig where
  fn f τ := ∃ s, ss[f]? = some s ∧ Inst s τ
  ctor c τ := ∃ s, P.ctors[c]? = some s ∧ Inst s τ
  method := select P.methods
  str := P.str
  list := P.list

/-! ## Typing rules -/

/-- The types at which each variable may be used. -/
abbrev TEnv := Nat → S → Prop

def TEnv.empty : TEnv := fun _ _ => False

/-- `x` may be used at the types `T`. -/
def TEnv.set (Γ : TEnv) (x : Nat) (T : S → Prop) : TEnv := fun y τ => if y = x then T τ else Γ y τ

/-- Later bindings hide earlier ones. -/
def TEnv.bindAll (Γ : TEnv) : List (Nat × S) → TEnv
  | [] => Γ
  | (x, τ) :: b => TEnv.bindAll (Γ.set x (· = τ)) b

/-- An annotation, if there is one, is respected. -/
def AnnOk : Option Ty → S → Prop
  | none, _ => True
  | some t, τ => ∃ δ, τ = ev δ [] t

mutual
/-- The pattern matches values of type `τ` and binds variables with the given types. -/
def PatTy (D : Sig) : Pat → S → List (Nat × S) → Prop
  | .wild, _, b => b = []
  | .bind x, τ, b => b = [(x, τ)]
  | .lit l, τ, b => τ = D.lit l ∧ b = []
  | .ctor c ps, τ, b => (ps = [] ∧ b = [] ∧ D.ctor c τ ∧ ∀ τs ρ, τ ≠ S.fn τs ρ) ∨
      ∃ τs, D.ctor c (S.fn τs τ) ∧ PatTyL D ps τs b
  | .tuple ps, τ, b => ∃ τs, τ = S.tuple τs ∧ PatTyL D ps τs b
  | .list ps, τ, b => ∃ el, τ = D.listOf el ∧ PatTyL D ps (ps.map (fun _ => el)) b
  | .listRest ps none, τ, b => ∃ el, τ = D.listOf el ∧ PatTyL D ps (ps.map (fun _ => el)) b
  | .listRest ps (some x), τ, b => ∃ el b', τ = D.listOf el ∧
      PatTyL D ps (ps.map (fun _ => el)) b' ∧ b = b' ++ [(x, τ)]
  | .as p x, τ, b => ∃ b', PatTy D p τ b' ∧ b = (x, τ) :: b'
def PatTyL (D : Sig) : List Pat → List S → List (Nat × S) → Prop
  | [], τs, b => τs = [] ∧ b = []
  | p :: ps, τs, b => ∃ τ τs' b1 b2, τs = τ :: τs' ∧ b = b1 ++ b2 ∧ PatTy D p τ b1 ∧
      PatTyL D ps τs' b2
end

mutual
/-- The typing rules. -/
def HasTy (D : Sig) : E → TEnv → S → Prop
  | .lit l, _, τ => τ = D.lit l
  | .loc _ x, Γ, τ => Γ x τ
  | .fn f, _, τ => D.fn f τ
  | .call e es, Γ, τ => ∃ τs, HasTy D e Γ (S.fn τs τ) ∧ HasTyL D es Γ τs
  | .cons c es, Γ, τ => (es = [] ∧ D.ctor c τ) ∨
      (es ≠ [] ∧ ∃ τs, D.ctor c (S.fn τs τ) ∧ HasTyL D es Γ τs)
  | .meth r m es, Γ, τ => ∃ ρ f τs, HasTy D r Γ ρ ∧ D.method m (tag ρ) = some f ∧
      D.fn f (S.fn (ρ :: τs) τ) ∧ HasTyL D es Γ τs
  | .bin _ l r, Γ, τ => τ = S.bool ∧ HasTy D l Γ S.bool ∧ HasTy D r Γ S.bool
  | .block ss v, Γ, τ => Stmts D ss Γ (fun Γ' => HasTy D v Γ' τ)
  | .case s arms, Γ, τ => ∃ ρ, HasTy D s Γ ρ ∧ ArmsTy D arms Γ ρ τ
  | .lam _ ps b, Γ, τ => ∃ τs ρ, τ = S.fn τs ρ ∧ List.Forall₂ AnnOk (ps.map Prod.snd) τs ∧
      HasTy D b (Γ.bindAll ((ps.map Prod.fst).zip τs)) ρ
  | .tuple es, Γ, τ => ∃ τs, τ = S.tuple τs ∧ HasTyL D es Γ τs
  | .list es, Γ, τ => ∃ el, τ = D.listOf el ∧ HasTyL D es Γ (es.map (fun _ => el))
def HasTyL (D : Sig) : List E → TEnv → List S → Prop
  | [], _, τs => τs = []
  | e :: es, Γ, τs => ∃ τ τs', τs = τ :: τs' ∧ HasTy D e Γ τ ∧ HasTyL D es Γ τs'
/-- The statements are well typed and afterwards `Q` holds of the variables.  A `let` may give its
variable several types, if the value has all of them. -/
def Stmts (D : Sig) : List Stmt → TEnv → (TEnv → Prop) → Prop
  | [], Γ, Q => Q Γ
  | .expr e :: ss, Γ, Q => (∃ τ, HasTy D e Γ τ) ∧ Stmts D ss Γ Q
  | .bind none ann e :: ss, Γ, Q => (∃ τ, HasTy D e Γ τ ∧ AnnOk ann τ) ∧ Stmts D ss Γ Q
  | .bind (some x) ann e :: ss, Γ, Q => ∃ T : S → Prop, (∃ τ, T τ) ∧
      (∀ τ, T τ → HasTy D e Γ τ ∧ AnnOk ann τ) ∧ Stmts D ss (Γ.set x T) Q
def ArmsTy (D : Sig) : List Arm → TEnv → S → S → Prop
  | [], _, _, _ => True
  | .mk p e :: arms, Γ, ρ, τ => (∃ b, PatTy D p ρ b ∧ HasTy D e (Γ.bindAll b) τ) ∧
      ArmsTy D arms Γ ρ τ
end

/-! ## What is written in an expression -/

mutual
/-- The nodes of the references to local variables, in source order. -/
def E.nodes : E → List Nat
  | .lit _ | .fn _ => []
  | .loc node _ => [node]
  | .call e es => e.nodes ++ nodesL es
  | .cons _ es => nodesL es
  | .meth r _ es => r.nodes ++ nodesL es
  | .bin _ l r => l.nodes ++ r.nodes
  | .block ss v => nodesSS ss ++ v.nodes
  | .case s arms => s.nodes ++ nodesArms arms
  | .lam _ _ b => b.nodes
  | .tuple es | .list es => nodesL es
def nodesL : List E → List Nat
  | [] => []
  | e :: es => e.nodes ++ nodesL es
def nodesSS : List Stmt → List Nat
  | [] => []
  | .expr e :: ss => e.nodes ++ nodesSS ss
  | .bind _ _ e :: ss => e.nodes ++ nodesSS ss
def nodesArms : List Arm → List Nat
  | [] => []
  | .mk _ b :: arms => b.nodes ++ nodesArms arms
end

mutual
/-- The annotations. -/
def E.anns : E → List Ty
  | .lit _ | .loc _ _ | .fn _ => []
  | .call e es => e.anns ++ annsL es
  | .cons _ es => annsL es
  | .meth r _ es => r.anns ++ annsL es
  | .bin _ l r => l.anns ++ r.anns
  | .block ss v => annsSS ss ++ v.anns
  | .case s arms => s.anns ++ annsArms arms
  | .lam _ ps b => ps.filterMap Prod.snd ++ b.anns
  | .tuple es | .list es => annsL es
def annsL : List E → List Ty
  | [] => []
  | e :: es => e.anns ++ annsL es
def annsSS : List Stmt → List Ty
  | [] => []
  | .expr e :: ss => e.anns ++ annsSS ss
  | .bind _ ann e :: ss => ann.toList ++ e.anns ++ annsSS ss
def annsArms : List Arm → List Ty
  | [] => []
  | .mk _ b :: arms => b.anns ++ annsArms arms
end

/-! ## Programs -/

/-- The function is well typed at the type `τ`. -/
def FnTy (D : Sig) (d : Fn) (τ : S) : Prop :=
  ∀ body, d.body = some body → ∃ τs ρ, τ = S.fn τs ρ ∧ τs.length = d.params.length ∧
    HasTy D body (TEnv.empty.bindAll (d.params.zip τs)) ρ

/-- A program is well typed when its functions can be given schemes such that every function is
well typed at every instance of its scheme. -/
def WellTyped (P : Prog) (ss : List Scheme.PolyTy) : Prop :=
  ss.length = P.fns.length ∧
  ∀ (f : Nat) d s, P.fns[f]? = some d → ss[f]? = some s → ∀ τ, Inst s τ → FnTy (P.sig ss) d τ

/-- Every type at which a function may be used is a type its declaration allows. -/
def Respects (P : Prog) (ss : List Scheme.PolyTy) : Prop :=
  ∀ (f : Nat) d s, P.fns[f]? = some d → ss[f]? = some s → ∀ τ, Inst s τ → Inst d.sig τ

/-- The program can be typed. -/
def Typable (P : Prog) : Prop := ∃ ss, WellTyped P ss ∧ Respects P ss

/-! ## Modules considered -/

/-- No `Error` and no `Never`; quantified variables are below `m`. -/
def OkHead (m : Nat) : Head → Prop
  | .error => False
  | .never => False
  | .localBound .. => False
  | .bound i => i < m
  | _ => True

/-- The abilities of the row have no arguments and are distinct. -/
def OkRow (r : Row) : Prop := (∀ e ∈ r.effects, e.args = []) ∧ (r.effects.map Eff.ability).Nodup

mutual
/-- No `Error`, no `Never`, quantified variables below `m`, simple rows. -/
def Ok (m : Nat) : Ty → Prop
  | .uni _ => True
  | .node h ks es _ => OkHead m h ∧ OkL m ks ∧ (∀ e ∈ es, e.args = []) ∧ (es.map Eff.ability).Nodup
def OkL (m : Nat) : List Ty → Prop
  | [] => True
  | t :: ts => Ok m t ∧ OkL m ts
end

/-- A function as it comes out of the parser and the collection of signatures: the declared type is
a function type with as many parameters as the declaration, the body is a block, and every
reference to a local variable is a node of its own. -/
structure WfFn (d : Fn) : Prop where
  sig : Ok d.sig.params d.sig.body
  arity : ∃ c ks es r, d.sig.body = .node (.func c) ks es r ∧ ks.length = d.params.length + 1
  block : ∀ b, d.body = some b → ∃ ss v, b = .block ss v
  anns : ∀ b, d.body = some b → ∀ a ∈ b.anns, Ok 0 a
  nodes : ∀ b, d.body = some b → b.nodes.Nodup

/-- The type of a constructor: a declared type, or a function. -/
def CtorHead : Ty → Prop
  | .node (.named _ _) _ _ _ => True
  | .node (.func _) _ _ _ => True
  | _ => False

structure Prog.Wf (P : Prog) : Prop where
  fns : ∀ d ∈ P.fns, WfFn d
  ctors : ∀ s ∈ P.ctors, Ok s.params s.body
  heads : ∀ s ∈ P.ctors, CtorHead s.body

mutual
/-- The expression uses the function `f`, or a method that may be `f`. -/
def E.mentions (ms : List Method) (f : Nat) : E → Prop
  | .lit _ | .loc _ _ => False
  | .fn g => g = f
  | .call e es => e.mentions ms f ∨ mentionsL ms f es
  | .cons _ es => mentionsL ms f es
  | .meth r m es => (∃ e ∈ ms, e.name = m ∧ e.fn = f) ∨ r.mentions ms f ∨ mentionsL ms f es
  | .bin _ l r => l.mentions ms f ∨ r.mentions ms f
  | .block ss v => mentionsSS ms f ss ∨ v.mentions ms f
  | .case s arms => s.mentions ms f ∨ mentionsArms ms f arms
  | .lam _ _ b => b.mentions ms f
  | .tuple es | .list es => mentionsL ms f es
def mentionsL (ms : List Method) (f : Nat) : List E → Prop
  | [] => False
  | e :: es => e.mentions ms f ∨ mentionsL ms f es
def mentionsSS (ms : List Method) (f : Nat) : List Stmt → Prop
  | [] => False
  | .expr e :: ss => e.mentions ms f ∨ mentionsSS ms f ss
  | .bind _ _ e :: ss => e.mentions ms f ∨ mentionsSS ms f ss
def mentionsArms (ms : List Method) (f : Nat) : List Arm → Prop
  | [] => False
  | .mk _ b :: arms => b.mentions ms f ∨ mentionsArms ms f arms
end

/-- A function used before its own body has been checked has all the types that its declaration
promises. -/
def Honest (P : Prog) (ss : List Scheme.PolyTy) : Prop :=
  ∀ (i f : Nat) d b d' s, P.fns[i]? = some d → d.body = some b → i ≤ f → b.mentions P.methods f →
    P.fns[f]? = some d' → ss[f]? = some s → ∀ τ, Inst d'.sig τ → Inst s τ

/-- A declared type that allows one type only. -/
def Mono (s : Scheme.PolyTy) : Prop := ∀ τ τ', Inst s τ → Inst s τ' → τ = τ'

/-- A function that is used before its own body has been checked is declared with all its types. -/
def Annotated (P : Prog) : Prop :=
  ∀ (i f : Nat) d b d', P.fns[i]? = some d → d.body = some b → i ≤ f → b.mentions P.methods f →
    P.fns[f]? = some d' → Mono d'.sig

mutual
/-- No tuple or list patterns. -/
def Pat.plain : Pat → Prop
  | .wild | .bind _ | .lit _ => True
  | .ctor _ ps => plainPats ps
  | .tuple _ | .list _ | .listRest _ _ => False
  | .as p _ => p.plain
def plainPats : List Pat → Prop
  | [] => True
  | p :: ps => p.plain ∧ plainPats ps
end

mutual
/-- No `&&` or `||`, no method calls, no tuple or list patterns. -/
def E.plain : E → Prop
  | .lit _ | .loc _ _ | .fn _ => True
  | .call e es => e.plain ∧ plainL es
  | .cons _ es => plainL es
  | .meth _ _ _ | .bin _ _ _ => False
  | .block ss v => plainSS ss ∧ v.plain
  | .case s arms => s.plain ∧ plainArms arms
  | .lam _ _ b => b.plain
  | .tuple es | .list es => plainL es
def plainL : List E → Prop
  | [] => True
  | e :: es => e.plain ∧ plainL es
def plainSS : List Stmt → Prop
  | [] => True
  | .expr e :: ss => e.plain ∧ plainSS ss
  | .bind _ _ e :: ss => e.plain ∧ plainSS ss
def plainArms : List Arm → Prop
  | [] => True
  | .mk p b :: arms => p.plain ∧ b.plain ∧ plainArms arms
end

/-- Every body is plain. -/
def Prog.plain (P : Prog) : Prop := ∀ d ∈ P.fns, ∀ b, d.body = some b → b.plain

end Verif.Typing
