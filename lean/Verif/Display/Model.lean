import Mathlib.Data.List.Basic

/-!
Model of how signature help shows functions: `src/lsp/completion_index.rs` 310–381 and
`src/lsp/pretty.rs` 10–45.

Simplifications: text is a list of characters.  A named type is a path of one part and the constructor
of an application is a path (`lower_type_path`, astgen/declarations.rs 411–445 and 252–272).
-/

namespace Verif.Display

abbrev Text := List Char

/-- `TypeAnnotationKind`. -/
inductive Ty where
  | path (parts : List Text)
  | app (ctor : List Text) (args : List Ty)
  | func (params : List Ty) (effects : Option (List Ty)) (result : Ty)
  | tuple (elems : List Ty)
  | infer
  | error

/-- `join` of the standard library. -/
def join (sep : Text) : List Text → Text
  | [] => []
  | [x] => x
  | x :: y :: xs => x ++ (sep ++ join sep (y :: xs))

mutual
/-- completion_index.rs 310–337: `print_type_annotation`. -/
def print : Ty → Text
  | .path parts => join [':', ':'] parts
  | .app ctor args => join [':', ':'] ctor ++ '(' :: (printList args ++ [')'])
  | .func params _ result =>
    '(' :: (printList params ++ ')' :: ' ' :: '-' :: '>' :: ' ' :: print result)
  | .tuple elems => '(' :: (printList elems ++ [')'])
  | .infer => ['_']
  | .error => ['?']
/-- The same for lists, with commas. -/
def printList : List Ty → Text
  | [] => []
  | t :: ts => print t ++ (if ts.isEmpty then [] else ',' :: ' ' :: printList ts)
end

/-- What is shown of a declaration of a function. -/
structure Decl where
  name : Text
  params : List (Text × Option Ty)
  effects : Option (List Ty)
  result : Option Ty

/-- pretty.rs 19–31: the label of a parameter. -/
def paramLabel : Text × Option Ty → Text
  | (name, some ty) => name ++ ':' :: ' ' :: print ty
  | (name, none) => name

/-- completion_index.rs 362–369: the effects of a signature; an empty list counts as none. -/
def effectText : Option (List Ty) → Option Text
  | none => none
  | some [] => none
  | some (t :: ts) => some (printList (t :: ts))

/-- pretty.rs 33–44: the label of a signature. -/
def label (d : Decl) : Text :=
  let ps := join [',', ' '] (d.params.map paramLabel)
  let ret := match d.result with
    | some t => print t
    | none => ['_']
  match effectText d.effects with
  | some e => 'f' :: 'n' :: ' ' :: (d.name ++ '(' :: (ps ++ ')' :: ' ' :: '-' :: '>' :: '{' ::
      (e ++ '}' :: ' ' :: ret)))
  | none => 'f' :: 'n' :: ' ' :: (d.name ++ '(' :: (ps ++ ')' :: ' ' :: '-' :: '>' :: ' ' :: ret))

end Verif.Display
