import Verif.SigHelp.Model
/- Specification of signature help over concrete syntax trees. -/
namespace Verif.SigHelp.Spec

/-- The offset lies in the node. -/
def Has (n : Node) (o : Nat) : Prop := n.start ≤ o ∧ o < n.stop

/-- Going down from one node to another through nodes that contain the offset. -/
inductive Below (o : Nat) : Node → Node → Prop
  | here {n} : Below o n n
  | down {n k m} : k ∈ n.kids → Has k o → Below o k m → Below o n m

/-- What parsing gives: children follow each other in the text. -/
inductive Ordered : Node → Prop
  | mk {k f s e kids} : kids.Pairwise (fun a b => a.stop ≤ b.start) →
      (∀ n ∈ kids, n.start ≤ n.stop) → (∀ n ∈ kids, Ordered n) → Ordered (.mk k f s e kids)

/-- The call is the innermost one around the offset. -/
def InnermostCall (root : Node) (o : Nat) (c : Node) : Prop :=
  Below o root c ∧ c.kind = "call_expression" ∧
    ∀ k ∈ c.kids, Has k o → ∀ m, Below o k m → m.kind ≠ "call_expression"

/-- The children of an argument list: `( a₀ , a₁ , … )`, possibly with a comma after the
last argument. -/
inductive Args : List Node → List Node → Prop
  | none {close} : close.kind ≠ "," → Args [close] []
  | last {a close} : a.kind ≠ "," → close.kind ≠ "," → Args [a, close] [a]
  | more {a comma rest args} : a.kind ≠ "," → comma.kind = "," → comma.start < comma.stop →
      Args rest args →
      Args (a :: comma :: rest) (a :: args)

/-- The node is an argument list with these arguments. -/
def ArgumentList (n : Node) (args : List Node) : Prop :=
  ∃ opening rest, n.kids = opening :: rest ∧ opening.kind ≠ "," ∧
    opening.start < opening.stop ∧ Args rest args

/-- The only child of the call that fills the field. -/
def Field (c : Node) (name : String) (n : Node) : Prop :=
  n ∈ c.kids ∧ n.field = some name ∧ ∀ m ∈ c.kids, m.field = some name → m = n

/-- Somewhere in the tree. -/
inductive Inside : Node → Node → Prop
  | here {n} : Inside n n
  | down {n k m} : k ∈ n.kids → Inside k m → Inside n m

/-- No child of a call fills a field called "arguments": the argument list is found by
its kind (astgen/expressions.rs 220-224: "tree-sitter grammar doesn't define "arguments"
field for call_expression"). -/
def NoArgumentsField (root : Node) : Prop :=
  ∀ c, Inside root c → c.kind = "call_expression" → ∀ k ∈ c.kids, k.field ≠ some "arguments"

end Verif.SigHelp.Spec
