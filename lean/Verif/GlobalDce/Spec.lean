import Verif.GlobalDce.Model
/-!
# Specification of unused-function elimination
-/
namespace Verif.GlobalDce

/-- An operation of a module that is not itself a module. -/
inductive Leaf where
  | func (f : Func)
  | exportFunc (target : Option Sym)
  | other (id : Nat)
deriving DecidableEq, Repr

/-- All operations of a module with the names of the modules around them, in order. -/
def leaves (path : List Sym) : Items → List (List Sym × Leaf)
  | .nil => []
  | .func f rest => (path, .func f) :: leaves path rest
  | .exportFunc t rest => (path, .exportFunc t) :: leaves path rest
  | .other id rest => (path, .other id) :: leaves path rest
  | .module none inner rest => leaves path inner ++ leaves path rest
  | .module (some n) inner rest => leaves (path ++ [n]) inner ++ leaves path rest

/-- The name under which a function is referred to: the names of the modules around it and its own,
separated by `::`. -/
def FullName (path : List Sym) (f : Func) (n : Sym) : Prop :=
  ∃ base, f.symName = some base ∧ n = "::".intercalate (path ++ [base])

/-- The body refers to the function `callee`: calls it, tail-calls it, or takes it as a value. -/
def Refers (f : Func) (callee : Sym) : Prop :=
  .call (some callee) ∈ f.body ∨ .tailCall (some callee) ∈ f.body ∨
  .constant (some callee) ∈ f.body

/-- An entry point: `main`, `_start`, a function with an ABI, a configured one (by its own or its
full name), or the target of an export. -/
def Entry (cfg : Config) (m : Items) (n : Sym) : Prop :=
  (∃ path f base, (path, .func f) ∈ leaves [] m ∧ FullName path f n ∧ f.symName = some base ∧
    (base = "main" ∨ base = "_start" ∨ f.abi = true ∨ base ∈ cfg.extraEntryPoints ∨
      n ∈ cfg.extraEntryPoints)) ∨
  (∃ path, (path, .exportFunc (some n)) ∈ leaves [] m)

/-- Reachable from an entry point. -/
inductive Reachable (cfg : Config) (m : Items) : Sym → Prop where
  | entry {n} : Entry cfg m n → Reachable cfg m n
  | step {caller callee path f} : Reachable cfg m caller → (path, .func f) ∈ leaves [] m →
      FullName path f caller → Refers f callee → Reachable cfg m callee

/-- An operation that has to stay: anything but a function with a name that is not reachable. -/
def Needed (cfg : Config) (m : Items) : List Sym × Leaf → Prop
  | (path, .func f) => ∀ n, FullName path f n → Reachable cfg m n
  | _ => True

end Verif.GlobalDce
