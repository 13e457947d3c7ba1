import Verif.Validate.Model

/-!
# What the validators are for

Stated over the tree of operations, without the functions of the model.
-/
namespace Verif.Validate

/-- `o` is an operation of one of the region's blocks. -/
def Holds (r : Region) (o : Op) : Prop := ∃ b ∈ r, o ∈ b.ops

/-- `o` lies somewhere below `r`, and `rs` are the regions around it, from `r` inwards. -/
inductive Path : Region → List Region → Op → Prop
  | here {r : Region} {o : Op} : Holds r o → Path r [r] o
  | inside {r s : Region} {rs : List Region} {p o : Op} :
      Holds r p → s ∈ p.regions → Path s rs o → Path r (r :: rs) o

/-- `o` lies somewhere below `r`. -/
def Under (r : Region) (o : Op) : Prop := ∃ rs, Path r rs o

/-- `v` is an argument of a block of `r` or a result of one of its operations. -/
def Defines (r : Region) (v : Nat) : Prop :=
  ∃ b ∈ r, v ∈ b.args ∨ ∃ o ∈ b.ops, v ∈ o.head.results

/-- The operation is a function of one of the given dialects. -/
def IsFn (dialects : List String) (o : Op) : Prop :=
  o.head.dialect ∈ dialects ∧ o.head.name = "func"

/-- In function `f`, operation `o` has as operand `i` a value that no region around `o` within the
function defines. -/
def OutOfScope (f o : Op) (i : Nat) : Prop :=
  ∃ r ∈ f.regions, ∃ rs v, Path r rs o ∧ o.head.operands[i]? = some v ∧ ∀ s ∈ rs, ¬ Defines s v

/-- In module `body`, operation `user` has `v` as operand `i`. -/
def UsedAt (body : Region) (v user i : Nat) : Prop :=
  ∃ o, Under body o ∧ o.head.id = user ∧ o.head.operands[i]? = some v

/-- `v` occurs in the module: as an operand, as a result or as a block argument. -/
def Occurs (body : Region) (v : Nat) : Prop :=
  (∃ o, Under body o ∧ (v ∈ o.head.operands ∨ v ∈ o.head.results))
    ∨ (∃ b ∈ body, v ∈ b.args)
    ∨ ∃ o, Under body o ∧ ∃ r ∈ o.regions, ∃ b ∈ r, v ∈ b.args

/-- The type is `core.never`. -/
def Never (c : Ctx) (t : Nat) : Prop := (c.types t).dialect = "core" ∧ (c.types t).name = "never"

/-- Operations that leave the function or do not come back, as dialect and name. -/
def tails : List (String × String) :=
  [("func", "tail_call"), ("func", "tail_call_indirect"), ("func", "unreachable"),
   ("ability", "perform"), ("ability", "handle_dispatch"), ("scf", "if"), ("scf", "switch")]

/-- A branch of an `scf.if` with the given results is one block that ends by yielding as many
values, or, when the only result has type `core.never`, by leaving. -/
def BranchOk (c : Ctx) (results : List Nat) (r : Region) : Prop :=
  ∃ args ops last, r = [.mk args (ops ++ [last])] ∧
    ((last.head.dialect = "scf" ∧ last.head.name = "yield"
        ∧ last.head.operands.length = results.length)
      ∨ (∃ v, results = [v] ∧ Never c (c.valueTy v))
        ∧ (last.head.dialect, last.head.name) ∈ tails)

/-- `t` is the function type `core.func` with this return type and these parameters. -/
def FnType (c : Ctx) (t ret : Nat) (params : List Nat) : Prop :=
  c.types t = ⟨"core", "func", ret :: params⟩

/-- What may be called with arguments of these types and never comes back: a function, or a closure
of one. -/
def TailCallable (c : Ctx) (t : Nat) (args : List Nat) : Prop :=
  ∃ f ret, (t = f ∨ c.types t = ⟨"closure", "closure", [f]⟩) ∧ FnType c f ret args ∧ Never c ret

/-- The shape each of the five kinds of operation must have. -/
structure Shaped (c : Ctx) (o : Op) : Prop where
  cmpf : o.head.dialect = "arith" → o.head.name = "cmpf" →
    ∃ p ∈ ["oeq", "une", "olt", "ole", "ogt", "oge"], o.head.predicate = some p
  ifs : o.head.dialect = "scf" → o.head.name = "if" →
    (∃ v, o.head.operands = [v]) ∧ ∃ t e, o.regions = [t, e]
      ∧ BranchOk c o.head.results t ∧ BranchOk c o.head.results e
  loops : o.head.dialect = "scf" → o.head.name = "loop" → o.head.results.length ≤ 1
  switches : o.head.dialect = "scf" → o.head.name = "switch" → o.head.results = []
  tailCalls : o.head.dialect = "func" → o.head.name = "tail_call_indirect" →
    o.head.results = [] ∧ ∃ callee args, o.head.operands = callee :: args
      ∧ TailCallable c (c.valueTy callee) (args.map c.valueTy)

/-- `o` declares a function `n` of `k` parameters. -/
def Declares (c : Ctx) (o : Op) (n : String) (k : Nat) : Prop :=
  IsFn ["func", "wasm", "clif"] o ∧ o.head.symName = some n ∧
    ∃ t, o.head.fnType = some t ∧ (c.types t).dialect = "core" ∧ (c.types t).name = "func"
      ∧ k = (c.types t).params.length - 1

/-- The last function called `n` that the module itself declares has `k` parameters. -/
def Arity (c : Ctx) (body : Region) (n : String) (k : Nat) : Prop :=
  ∃ before f after, body.flatMap Block.ops = before ++ f :: after ∧ Declares c f n k
    ∧ ∀ g ∈ after, ∀ j, ¬ Declares c g n j

/-- `o` is a direct call of `n`. -/
def CallOf (o : Op) (n : String) : Prop :=
  o.head.dialect = "func" ∧ (o.head.name = "call" ∨ o.head.name = "tail_call")
    ∧ o.head.callee = some n

/-- Operation `o` of a block reads a value that nothing defines until later in the block: it is a
result of `o` itself or of an operation after it, and of nothing before. -/
def ReadsEarly (b : Block) (o : Op) (v : Nat) : Prop :=
  ∃ before after, b.ops = before ++ o :: after ∧ v ∈ o.head.operands
    ∧ (∃ p ∈ o :: after, v ∈ p.head.results) ∧ v ∉ b.args ∧ ∀ p ∈ before, v ∉ p.head.results

end Verif.Validate
