import Verif.PreludeOps.Model

/-!
What the lowering of intrinsics of the standard library should do, without the code that does it.
-/

namespace Verif.PreludeOps

mutual
/-- `Lowered E R o os`: `os` is `o` lowered, where functions of which `E` holds are dropped and the
other operations are related by `R` and have their contents lowered. -/
inductive LoweredOp (E : OpData → Prop) (R : OpData → OpData → Prop) : Op → List Op → Prop
  | dropped (d bs) : E d → LoweredOp E R (.mk d bs) []
  | changed (d d' bs) : ¬ E d → d' ≠ d → R d d' → LoweredOp E R (.mk d bs) [.mk d' []]
  | same (d bs bs') : ¬ E d → R d d → LoweredBlocks E R bs bs' →
      LoweredOp E R (.mk d bs) [.mk d bs']
inductive LoweredBlocks (E : OpData → Prop) (R : OpData → OpData → Prop) :
    List Block → List Block → Prop
  | nil : LoweredBlocks E R [] []
  | cons (ops ops' bs bs') : LoweredOps E R ops ops' → LoweredBlocks E R bs bs' →
      LoweredBlocks E R (.mk ops :: bs) (.mk ops' :: bs')
inductive LoweredOps (E : OpData → Prop) (R : OpData → OpData → Prop) :
    List Op → List Op → Prop
  | nil : LoweredOps E R [] []
  | cons (o os ops ops') : LoweredOp E R o os → LoweredOps E R ops ops' →
      LoweredOps E R (o :: ops) (os ++ ops')
end

mutual
/-- All operations of a tree. -/
def Op.all : Op → List OpData
  | .mk d bs => d :: blocksAll bs
def blocksAll : List Block → List OpData
  | [] => []
  | b :: bs => b.all ++ blocksAll bs
def Block.all : Block → List OpData
  | .mk ops => opsAll ops
def opsAll : List Op → List OpData
  | [] => []
  | o :: os => o.all ++ opsAll os
end

/-- The operation is a function called `n`. -/
def IsFunc (d : OpData) (n : String) : Prop :=
  d.dialect = "func" ∧ d.name = "func" ∧ d.symbols.lookup "sym_name" = some n

/-- The operation calls `n`. -/
def IsCall (d : OpData) (n : String) : Prop :=
  d.dialect = "func" ∧ d.name = "call" ∧ d.symbols.lookup "callee" = some n

/-- The module has a function `n` of its own. -/
def Declared (ops : List Op) (n : String) : Prop := ∃ o ∈ ops, IsFunc o.data n

/-- The name of the intrinsic, or of an instance of it. -/
def PrependLike (n : String) : Prop :=
  n = "List::__tribute_list_prepend_intrinsic" ∨
    ∃ s : String, n = "List::__tribute_list_prepend_intrinsic" ++ "$" ++ s

/-- The module declares `n`, and as the intrinsic. -/
def IntrinsicDeclared (ops : List Op) (n : String) : Prop :=
  PrependLike n ∧ ∃ o ∈ ops, IsFunc o.data n ∧ o.data.abi = some "intrinsic"

/-- Calls of `n` mean the intrinsic: `n` is declared as the intrinsic, or `n` is the name of an
instance that is not declared and the intrinsic is. -/
def MeansPrepend (ops : List Op) (n : String) : Prop :=
  IntrinsicDeclared ops n ∨
    (PrependLike n ∧ ¬ Declared ops n ∧
      IntrinsicDeclared ops "List::__tribute_list_prepend_intrinsic")

/-- A call of the intrinsic with its arguments. -/
def PrependCall (ops : List Op) (d : OpData) (a b r : Nat) : Prop :=
  (∃ n, IsCall d n ∧ MeansPrepend ops n) ∧ d.operands = [a, b] ∧ d.results = [r]

/-- What becomes of an operation: a call of the intrinsic becomes the operation on the same values,
with the type of the element; others stay. -/
def PrependBecomes (ops : List Op) (ty : Nat → Nat) (d d' : OpData) : Prop :=
  (∃ a b r, PrependCall ops d a b r ∧
    d' = { dialect := "list", name := "prepend", types := [("element_type", ty a)], operands := [a, b], results := [r] }) ∨
  ((¬ ∃ a b r, PrependCall ops d a b r) ∧ d' = d)

/-- A declaration of the intrinsic. -/
def PrependDecl (ops : List Op) (d : OpData) : Prop := ∃ n, IsFunc d n ∧ IntrinsicDeclared ops n

/-- What becomes of an operation with input and output. -/
inductive IoBecomes : OpData → OpData → Prop
  | write (d a b r) : IsCall d "std::io::__tribute_io_write" → d.operands = [a, b] →
      d.results = [r] →
      IoBecomes d { dialect := "tribute_io", name := "write", operands := [a, b], results := [r] }
  | readLine (d r) : IsCall d "std::io::__tribute_io_read_line" → d.operands = [] →
      d.results = [r] → IoBecomes d { dialect := "tribute_io", name := "read_line", results := [r] }
  | same (d) :
      (¬ ∃ a b r, IsCall d "std::io::__tribute_io_write" ∧ d.operands = [a, b] ∧ d.results = [r]) →
      (¬ ∃ r, IsCall d "std::io::__tribute_io_read_line" ∧ d.operands = [] ∧ d.results = [r]) →
      IoBecomes d d

/-- A function by the name of one of the intrinsics. -/
def IoDecl (d : OpData) : Prop :=
  IsFunc d "std::io::__tribute_io_write" ∨ IsFunc d "std::io::__tribute_io_read_line"

/-- The symbols an operation refers to: all its symbols but its own name. -/
def refs (d : OpData) : List String :=
  (d.symbols.filter (·.1 ≠ "sym_name")).map (·.2)

end Verif.PreludeOps
