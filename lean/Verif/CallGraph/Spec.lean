import Verif.CallGraph.Model
import Mathlib.Logic.Relation
/-!
# Specification: cycles and mutual reachability
-/
namespace Verif.CallGraph

/-- `a` calls `b`, both defined in the module. -/
def Calls (g : Graph) (a b : Sym) : Prop := a ∈ g.funcs ∧ b ∈ g.edges a ∧ b ∈ g.funcs

/-- `b` can be reached from `a` by zero or more calls. -/
def Reaches (g : Graph) (a b : Sym) : Prop := Relation.ReflTransGen (Calls g) a b

/-- `a` lies on a cycle of calls. -/
def OnCycle (g : Graph) (a : Sym) : Prop := Relation.TransGen (Calls g) a a

/-- `m` contains a function whose full name is `name` and whose body is `body`; `path` are the names
of the enclosing modules. -/
inductive Defines : List Sym → Items → Sym → List BodyOp → Prop
  | top {path n body rest} (h : path = []) : Defines path (.func (some n) body rest) n body
  | nested {path n body rest} (h : path ≠ []) :
      Defines path (.func (some n) body rest) ("::".intercalate (path ++ [n])) body
  | skipFunc {path n body rest f b} : Defines path rest f b → Defines path (.func n body rest) f b
  | skipOther {path rest f b} : Defines path rest f b → Defines path (.other rest) f b
  | skipModule {path n inner rest f b} : Defines path rest f b →
      Defines path (.module n inner rest) f b
  | inNamed {path n inner rest f b} : Defines (path ++ [n]) inner f b →
      Defines path (.module (some n) inner rest) f b
  | inUnnamed {path inner rest f b} : Defines path inner f b →
      Defines path (.module none inner rest) f b

/-- The operation names `c` as the function it calls. -/
def CallsOp (c : Sym) (o : BodyOp) : Prop := o = .call (some c) ∨ o = .tailCall (some c)

/-- The operation mentions `c`. -/
def Mentions (c : Sym) (o : BodyOp) : Prop := CallsOp c o ∨ o = .constant (some c)

/-- Number of call sites of `c` in a module (functions without a name are not analysed). -/
def callSiteCount (c : Sym) : Items → Nat
  | .nil => 0
  | .func (some _) body rest =>
    body.countP (fun o => decide (o = .call (some c) ∨ o = .tailCall (some c))) + callSiteCount c rest
  | .func none _ rest => callSiteCount c rest
  | .other rest => callSiteCount c rest
  | .module _ inner rest => callSiteCount c inner + callSiteCount c rest

end Verif.CallGraph
