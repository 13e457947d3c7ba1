import Verif.Mono.Model
import Verif.Scheme.Spec

/-!
# What specialisation names and type arguments should be
-/

namespace Verif.Mono
open Verif.Types

mutual
/-- A type without its effect rows, calling conventions and display names. -/
def forget : Ty → Ty
  | .uni v => .uni v
  | .node h ks _ _ => .node (match h with
      | .func _ => .func 0
      | .named id _ => .named id 0
      | h => h) (forgetL ks) [] none
def forgetL : List Ty → List Ty
  | [] => []
  | t :: ts => forget t :: forgetL ts
end

mutual
/-- Types as the compiler builds them: primitive types have no children, a function type has a
result, and only function and continuation types have an effect row. -/
def WF : Ty → Prop
  | .uni _ => True
  | .node h ks es r => WFL ks ∧ match h with
    | .prim p => p < 7 ∧ ks = [] ∧ es = [] ∧ r = none
    | .never => ks = [] ∧ es = [] ∧ r = none
    | .error => ks = [] ∧ es = [] ∧ r = none
    | .bound _ => ks = [] ∧ es = [] ∧ r = none
    | .localBound _ _ => ks = [] ∧ es = [] ∧ r = none
    | .named _ _ => es = [] ∧ r = none
    | .tuple => es = [] ∧ r = none
    | .app => es = [] ∧ r = none
    | .func _ => ks ≠ []
    | .cont => ks.length = 2
def WFL : List Ty → Prop
  | [] => True
  | t :: ts => WF t ∧ WFL ts
end

mutual
/-- No continuation types, except inside effect rows. -/
def NoCont : Ty → Prop
  | .uni _ => True
  | .node h ks _ _ => h ≠ .cont ∧ NoContL ks
def NoContL : List Ty → Prop
  | [] => True
  | t :: ts => NoCont t ∧ NoContL ts
end

/-- A symbol that can be told apart in a generated name: not empty, without `$`, not starting with
a digit. -/
def Ident (s : List Char) : Prop :=
  s ≠ [] ∧ '$' ∉ s ∧ ∀ c, s.head? = some c → c.isDigit = false

/-- The words with a meaning of their own in generated names. -/
def reserved : List (List Char) :=
  ["Int".toList, "Nat".toList, "Float".toList, "Bool".toList, "Bytes".toList, "Rune".toList,
    "Nil".toList, "Never".toList, "Fn".toList, "Tup".toList]

/-- Different type declarations have different names, which are identifiers other than the
reserved words. -/
def GoodNames (nm : Names) : Prop :=
  (∀ i j, nm i = nm j → i = j) ∧ ∀ i, Ident (nm i) ∧ nm i ∉ reserved

mutual
/-- The quantified variable `i` occurs outside effect rows and in a place where type arguments
are looked for. -/
def Shows (i : Nat) : Ty → Prop
  | .uni _ => False
  | .node h ks _ _ => match h with
    | .bound j => i = j
    | .named _ _ => ShowsL i ks
    | .func _ => ShowsL i ks
    | .tuple => ShowsL i ks
    | _ => False
def ShowsL (i : Nat) : List Ty → Prop
  | [] => False
  | t :: ts => Shows i t ∨ ShowsL i ts
end

mutual
/-- Quantified variables do not occur inside type applications and continuations. -/
def Plain : Ty → Prop
  | .uni _ => True
  | .node h ks es _ => match h with
    | .app => Scheme.NoBoundL ks ∧ Scheme.NoBoundE es
    | .cont => Scheme.NoBoundL ks ∧ Scheme.NoBoundE es
    | .named _ _ => PlainL ks
    | .func _ => PlainL ks
    | .tuple => PlainL ks
    | _ => True
def PlainL : List Ty → Prop
  | [] => True
  | t :: ts => Plain t ∧ PlainL ts
end

mutual
/-- `c` is the type `s` with the types `ts` in place of its quantified variables.  The effect rows
and calling conventions of function types, and the display names of declared types, may differ
from those of `s` (they are instantiated separately). -/
def InstOf (ts : List Ty) : Ty → Ty → Prop
  | .uni v, c => c = .uni v
  | .node h ks es r, c => match h with
    | .bound i => ts[i]? = some c
    | .func _ => ∃ m ks' es' r', c = .node (.func m) ks' es' r' ∧ InstOfL ts ks ks'
    | .named id _ => ∃ n ks' es' r', c = .node (.named id n) ks' es' r' ∧ InstOfL ts ks ks'
    | .tuple => ∃ ks' es' r', c = .node .tuple ks' es' r' ∧ InstOfL ts ks ks'
    | _ => Scheme.substB ts (.node h ks es r) = .ok c
def InstOfL (ts : List Ty) : List Ty → List Ty → Prop
  | [], cs => cs = []
  | s :: ss, cs => ∃ c cs', cs = c :: cs' ∧ InstOf ts s c ∧ InstOfL ts ss cs'
end

end Verif.Mono
