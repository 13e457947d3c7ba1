import Verif.DocHelp.Model

/-!
Which comments document a function, and what they say.
-/

namespace Verif.DocHelp

/-- Comments of either sort. -/
def Node.isComment : Node → Bool
  | .docLine _ => true
  | .docBlock _ => true
  | .comment => true
  | _ => false

/-- The node documents, and what it says: the text between the marks, without the white space at both
ends. -/
inductive Says (white : Char → Bool) : Node → Text → Prop
  | line (a x b : Text) (ha : ∀ c ∈ a, white c = true) (hb : ∀ c ∈ b, white c = true)
      (hf : ∀ c ∈ x.head?, white c = false) (hl : ∀ c ∈ x.getLast?, white c = false) :
      Says white (.docLine ("///".toList ++ (a ++ x ++ b))) x
  | block (a x b : Text) (ha : ∀ c ∈ a, white c = true) (hb : ∀ c ∈ b, white c = true)
      (hf : ∀ c ∈ x.head?, white c = false) (hl : ∀ c ∈ x.getLast?, white c = false) :
      Says white (.docBlock ("/**".toList ++ (a ++ x ++ b) ++ "*/".toList)) x

/-- What a run of comments says, in order; plain comments say nothing. -/
inductive SaysAll (white : Char → Bool) : List Node → List Text → Prop
  | nil : SaysAll white [] []
  | doc {n : Node} {x : Text} {r : List Node} {xs : List Text} (h : Says white n x)
      (hr : SaysAll white r xs) : SaysAll white (n :: r) (x :: xs)
  | plain {r : List Node} {xs : List Text} (hr : SaysAll white r xs) :
      SaysAll white (.comment :: r) xs

/-- A function of this name is defined at the node or anywhere below it. -/
inductive Defines (name : Text) : Node → Prop
  | here (kids : List Node) : Defines name (.func name kids)
  | inFunc {n : Text} {kids : List Node} {k : Node} (hk : k ∈ kids) (h : Defines name k) :
      Defines name (.func n kids)
  | inOther {kids : List Node} {k : Node} (hk : k ∈ kids) (h : Defines name k) :
      Defines name (.other kids)

/-- The lines of a text. -/
def lines : List Text → Text
  | [] => []
  | x :: xs => x ++ (xs.map (fun y => '\n' :: y)).flatten

end Verif.DocHelp
