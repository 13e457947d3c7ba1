import Verif.Convert.Model

/-!
# What the rules of a conversion mean

In terms of the rules that were registered, in any order.
-/
namespace Verif.Convert.Spec

/-- What the rules say about an operation at each level: rules for the operation before rules for its
dialect before the rule for the rest, functions before lists. -/
def Says (rules : List Rule) (op : Op) : Nat → Check → Prop
  | 0, c => ∃ f, .dynamicOp op.key f ∈ rules ∧
      (f op = .legal ∧ c = .legal ∨ f op = .illegal ∧ c = .illegal)
  | 1, c => .legalOp op.key ∈ rules ∧ c = .legal ∨ .illegalOp op.key ∈ rules ∧ c = .illegal
  | 2, c => ∃ f, .dynamicDialect op.dialect f ∈ rules ∧
      (f op = .legal ∧ c = .legal ∨ f op = .illegal ∧ c = .illegal)
  | 3, c => .legalDialect op.dialect ∈ rules ∧ c = .legal ∨
      .illegalDialect op.dialect ∈ rules ∧ c = .illegal
  | 4, c => ∃ f, .dynamicUnknown f ∈ rules ∧
      (f op = .legal ∧ c = .legal ∨ f op = .illegal ∧ c = .illegal)
  | _, _ => False

/-- The first level that says something decides. -/
def Legality (rules : List Rule) (op : Op) (c : Check) : Prop :=
  (∃ n, Says rules op n c ∧ ∀ m < n, ∀ c', ¬ Says rules op m c') ∨
  (c = .unknown ∧ ∀ n c', ¬ Says rules op n c')

/-- Everything inside the operation counts as legal. -/
def Shields (rules : List Rule) (op : Op) : Prop :=
  (.recursiveDynamicOp op.key ∈ rules ∧ ∃ f, .dynamicOp op.key f ∈ rules ∧ f op = .legal) ∨
  (.recursiveLegalOp op.key ∈ rules ∧ Legality rules op .legal)

/-- The operations that a conversion is about: at any depth, but not inside one that shields. -/
inductive Within (rules : List Rule) : List Op → Op → Prop where
  | here {ops op} : op ∈ ops → Within rules ops op
  | inside {ops op o} : op ∈ ops → ¬ Shields rules op → Within rules op.body o → Within rules ops o

/-- An operation that does not meet the aim of the conversion. -/
def Bad (rules : List Rule) : Mode → Op → Prop
  | .partialMode, op => Legality rules op .illegal
  | .full, op => ¬ Legality rules op .legal

/-- The rewrite changes something: it inserts operations, does not keep the operation as it is, or
adds operations to the module. -/
def Changes (rw : Rewrite) : Prop :=
  rw.before ≠ [] ∨ rw.fate ≠ .keep ∨ rw.moduleOps ≠ []

/-- A pattern has something to do on an operation. -/
def Applies (p : Pattern) (op : Op) : Prop := ∃ rw, p op = some rw ∧ Changes rw

/-- A pattern has something to do, and may do it. -/
def Pending (rules : List Rule) (ps : List Pattern) (op : Op) : Prop :=
  ¬ Legality rules op .legal ∧ ∃ p ∈ ps, Applies p op

/-- Legality and patterns look at the operation, not at what is nested in it. -/
structure HeadOnly (rules : List Rule) (ps : List Pattern) : Prop where
  legality : ∀ op b c, Legality rules (op.withBody b) c ↔ Legality rules op c
  shields : ∀ op b, Shields rules (op.withBody b) ↔ Shields rules op
  applies : ∀ p ∈ ps, ∀ op b, Applies p (op.withBody b) ↔ Applies p op

/-- Everything there is still to do in these operations is on operations of a rank below `k`. -/
def Below (rules : List Rule) (ps : List Pattern) (rank : String → String → Nat → Nat) (k : Nat)
    (ops : List Op) : Prop :=
  ∀ op, Within rules ops op → Pending rules ps op → rank op.dialect op.name op.data < k

/-- Patterns make progress: what a pattern leaves to do is of a lower rank than the operation it
worked on, or was nested in it. -/
def Progress (rules : List Rule) (ps : List Pattern) (rank : String → String → Nat → Nat) : Prop :=
  ∀ p ∈ ps, ∀ op rw, p op = some rw → Changes rw →
    ∀ k, rank op.dialect op.name op.data ≤ k → Below rules ps rank k op.body →
      Below rules ps rank k (rw.inPlace op) ∧ Below rules ps rank k rw.moduleOps

end Verif.Convert.Spec
