import Verif.ListLower.Model
import Verif.ScfToCf.Spec

/-!
# What list operations mean

Nothing here mentions the lowering.
-/

namespace Verif.ListLower

open Verif.ScfToCf

/-- The meaning of operations, with nodes: `null`, and pairs of an element and the rest. -/
structure Nodes (N : Names) (I : Interp) where
  null : I.V
  node : I.V → I.V → I.V
  bool : Bool → I.V
  truth : ∀ b, I.truth (bool b) = b
  node_ne : ∀ a b, node a b ≠ null
  /-- `adt.ref_null`, `adt.struct_new`, `adt.ref_is_null`. -/
  opNull : ∀ ty s, I.plain (N.null ty) [] s = some ([null], s)
  opNode : ∀ ty a b s, I.plain (N.node ty) [a, b] s = some ([node a b], s)
  opIsNull : ∀ v s, I.plain N.isNull [v] s = some ([bool (decide (v = null))], s)
  /-- `adt.struct_get` of a node; of anything else it gives an arbitrary value. -/
  field : I.V → Bool → I.V
  opField : ∀ ty tail v s, I.plain (N.field ty tail) [v] s = some ([field v tail], s)
  fieldElement : ∀ a b, field (node a b) false = a
  fieldRest : ∀ a b, field (node a b) true = b

/-- A list as a chain of nodes. -/
def Nodes.list {N : Names} {I : Interp} (D : Nodes N I) : List I.V → I.V
  | [] => D.null
  | x :: xs => D.node x (D.list xs)

/-- The list operations work as on mathematical lists; `list.head` and `list.tail` of an empty list trap. What they do with
values that are not lists does not matter in a program that was type checked; here it is what reading the field gives. -/
structure Lists {N : Names} {I : Interp} (D : Nodes N I) : Prop where
  empty : ∀ n ty s, N.kind n = some (.empty ty) → I.plain n [] s = some ([D.list []], s)
  prepend : ∀ n ty x xs s, N.kind n = some (.prepend ty) → I.plain n [x, D.list xs] s = some ([D.list (x :: xs)], s)
  isEmpty : ∀ n ty xs s, N.kind n = some (.isEmpty ty) → I.plain n [D.list xs] s = some ([D.bool xs.isEmpty], s)
  head : ∀ n ty x xs s, N.kind n = some (.observe ty false) → I.plain n [D.list (x :: xs)] s = some ([x], s)
  tail : ∀ n ty x xs s, N.kind n = some (.observe ty true) → I.plain n [D.list (x :: xs)] s = some ([D.list xs], s)
  trap : ∀ n ty f s, N.kind n = some (.observe ty f) → I.plain n [D.list []] s = none
  prependOther : ∀ n ty x v s, N.kind n = some (.prepend ty) → (∀ xs, v ≠ D.list xs) → I.plain n [x, v] s = some ([D.node x v], s)
  isEmptyOther : ∀ n ty v s, N.kind n = some (.isEmpty ty) → (∀ xs, v ≠ D.list xs) → I.plain n [v] s = some ([D.bool false], s)
  observeOther : ∀ n ty f v s, N.kind n = some (.observe ty f) → (∀ xs, v ≠ D.list xs) → I.plain n [v] s = some ([D.field v f], s)

/-- The program is aborted: an operation traps, or `func.unreachable` is reached. -/
def Aborted (N : Names) {V : Type} (o : Out V) : Prop := o = .trap ∨ o = .exit N.unreachable []

/-- The same end, as far as anybody can see. -/
def SameEnd (N : Names) {V : Type} (o o' : Out V) : Prop := o = o' ∨ (Aborted N o ∧ Aborted N o')

mutual
/-- Every list operation has the operands and results that its definition in the dialect gives it. -/
def Op.formed (N : Names) : Op → Prop
  | .plain n as rs =>
    match N.kind n with
    | some (.empty _) => as.length = 0 ∧ rs.length = 1
    | some (.prepend _) => as.length = 2 ∧ rs.length = 1
    | some (.isEmpty _) => as.length = 1 ∧ rs.length = 1
    | some (.observe _ _) => as.length = 1 ∧ rs.length = 1
    | none => True
  | .ite _ _ t e => formedB N t ∧ formedB N e
  | .loop _ _ b => formedB N b
  | .switch _ _ cs => formedC N cs
  | _ => True
def formedO (N : Names) : List Op → Prop
  | [] => True
  | o :: os => Op.formed N o ∧ formedO N os
def formedB (N : Names) : List Block → Prop
  | [] => True
  | .mk _ _ os :: bs => formedO N os ∧ formedB N bs
def formedC (N : Names) : List Case → Prop
  | [] => True
  | .mk _ b :: cs => formedB N b ∧ formedC N cs
end

mutual
/-- No list operation is left. -/
def Op.listless (N : Names) : Op → Prop
  | .plain n _ _ => N.kind n = none
  | .ite _ _ t e => listlessB N t ∧ listlessB N e
  | .loop _ _ b => listlessB N b
  | .switch _ _ cs => listlessC N cs
  | _ => True
def listlessO (N : Names) : List Op → Prop
  | [] => True
  | o :: os => Op.listless N o ∧ listlessO N os
def listlessB (N : Names) : List Block → Prop
  | [] => True
  | .mk _ _ os :: bs => listlessO N os ∧ listlessB N bs
def listlessC (N : Names) : List Case → Prop
  | [] => True
  | .mk _ b :: cs => listlessB N b ∧ listlessC N cs
end

/-- The names of the new operations are not those of list operations. -/
structure Distinct (N : Names) : Prop where
  null : ∀ ty, N.kind (N.null ty) = none
  node : ∀ ty, N.kind (N.node ty) = none
  field : ∀ ty f, N.kind (N.field ty f) = none
  isNull : N.kind N.isNull = none

mutual
/-- What `list.head` and `list.tail` read and define, in the order of the text. -/
def Op.reads (N : Names) : Op → List (Value × Value)
  | .plain n as rs =>
    match N.kind n with
    | some (.observe _ _) => as.flatMap (fun a => rs.map (fun r => (a, r)))
    | _ => []
  | .ite _ _ t e => readsB N t ++ readsB N e
  | .loop _ _ b => readsB N b
  | .switch _ _ cs => readsC N cs
  | _ => []
def readsO (N : Names) : List Op → List (Value × Value)
  | [] => []
  | o :: os => Op.reads N o ++ readsO N os
def readsB (N : Names) : List Block → List (Value × Value)
  | [] => []
  | .mk _ _ os :: bs => readsO N os ++ readsB N bs
def readsC (N : Names) : List Case → List (Value × Value)
  | [] => []
  | .mk _ b :: cs => readsB N b ++ readsC N cs
end

/-- No `list.head` or `list.tail` reads the result of another one that stands later in the text, or its own. -/
def InOrder (N : Names) (bs : List Block) : Prop :=
  (readsB N bs).Pairwise (fun x y => x.1 ≠ y.2) ∧ ∀ x ∈ readsB N bs, x.1 ≠ x.2

end Verif.ListLower
